import Verif.Weak.Sound
import Verif.Weak.SpecProgress
import Verif.Proof.Progress
import Mathlib.Order.GameAdd

/-!
# Progress under weak memory

Helper file (no property statements).
-/

namespace Verif.Weak

variable {α β γ : Type} {D : Mode} {mx n : Nat}

/-! ## views point to existing messages -/

structure View.In (m : WMem α) (V : View) : Prop where
  res : V.res < m.res.length
  written : V.written < m.written.length
  cap : V.cap < m.cap.length
  st : ∀ i, V.st i < (m.st i).length

/-- All messages carry views of existing messages. -/
structure MsgsIn (m : WMem α) : Prop where
  res : ∀ r ∈ m.res, r.view.In m
  written : ∀ r ∈ m.written, r.view.In m
  cap : ∀ r ∈ m.cap, r.view.In m
  st : ∀ i, ∀ r ∈ m.st i, r.view.In m

/-- There are only more messages. -/
structure Longer (m m' : WMem α) : Prop where
  res : m.res.length ≤ m'.res.length
  written : m.written.length ≤ m'.written.length
  cap : m.cap.length ≤ m'.cap.length
  st : ∀ i, (m.st i).length ≤ (m'.st i).length

theorem Longer.refl (m : WMem α) : Longer m m := ⟨Nat.le_refl _, Nat.le_refl _, Nat.le_refl _, fun _ => Nat.le_refl _⟩

theorem View.In.longer {m m' : WMem α} {V : View} (h : V.In m) (hl : Longer m m') : V.In m' :=
  ⟨Nat.lt_of_lt_of_le h.res hl.res, Nat.lt_of_lt_of_le h.written hl.written, Nat.lt_of_lt_of_le h.cap hl.cap,
    fun i => Nat.lt_of_lt_of_le (h.st i) (hl.st i)⟩

theorem View.In.join {m : WMem α} {V W : View} (h : V.In m) (h' : W.In m) : (V.join W).In m :=
  ⟨Nat.max_lt.2 ⟨h.res, h'.res⟩, Nat.max_lt.2 ⟨h.written, h'.written⟩, Nat.max_lt.2 ⟨h.cap, h'.cap⟩,
    fun i => Nat.max_lt.2 ⟨h.st i, h'.st i⟩⟩

theorem View.In.read {m : WMem α} {V : View} {o : MOrd} {r : Msg γ} (h : V.In m) (h' : r.view.In m) : (V.read o r).In m := by
  unfold View.read; split
  · exact h.join h'
  · exact h

theorem View.In.bot {m : WMem α} {V : View} (h : V.In m) : View.bot.In m :=
  ⟨Nat.lt_of_le_of_lt (Nat.zero_le _) h.res, Nat.lt_of_le_of_lt (Nat.zero_le _) h.written,
    Nat.lt_of_le_of_lt (Nat.zero_le _) h.cap, fun i => Nat.lt_of_le_of_lt (Nat.zero_le _) (h.st i)⟩

theorem View.In.sent {m : WMem α} {V : View} {o : MOrd} (h : V.In m) : (V.sent o).In m := by
  unfold View.sent; split
  · exact h
  · exact h.bot

theorem View.In.atRes {m : WMem α} {V : View} {t : Nat} (h : V.In m) (ht : t < m.res.length) : (V.atRes t).In m :=
  ⟨Nat.max_lt.2 ⟨h.res, ht⟩, h.written, h.cap, h.st⟩

theorem View.In.atWritten {m : WMem α} {V : View} {t : Nat} (h : V.In m) (ht : t < m.written.length) : (V.atWritten t).In m :=
  ⟨h.res, Nat.max_lt.2 ⟨h.written, ht⟩, h.cap, h.st⟩

theorem View.In.atCap {m : WMem α} {V : View} {t : Nat} (h : V.In m) (ht : t < m.cap.length) : (V.atCap t).In m :=
  ⟨h.res, h.written, Nat.max_lt.2 ⟨h.cap, ht⟩, h.st⟩

theorem View.In.atSt {m : WMem α} {V : View} {i t : Nat} (h : V.In m) (ht : t < (m.st i).length) : (V.atSt i t).In m :=
  ⟨h.res, h.written, h.cap, fun j => by
    simp only [View.atSt, upd_apply]
    split
    · next hj => subst hj; exact Nat.max_lt.2 ⟨h.st _, ht⟩
    · exact h.st j⟩

theorem View.In.note {m : WMem α} {V : View} {k : Nat} (h : V.In m) : (V.note k).In m := ⟨h.res, h.written, h.cap, h.st⟩

theorem lt_of_some {l : List γ} {t : Nat} {r : γ} (h : l[t]? = some r) : t < l.length := (List.getElem?_eq_some_iff.1 h).1

theorem mem_of_some {l : List γ} {t : Nat} {r : γ} (h : l[t]? = some r) : r ∈ l := List.mem_of_getElem? h

theorem longer_res {m : WMem α} {r : Msg Nat} : Longer m { m with res := m.res ++ [r] } :=
  ⟨by simp, Nat.le_refl _, Nat.le_refl _, fun _ => Nat.le_refl _⟩

theorem longer_written {m : WMem α} {r : Msg Nat} : Longer m { m with written := m.written ++ [r] } :=
  ⟨Nat.le_refl _, by simp, Nat.le_refl _, fun _ => Nat.le_refl _⟩

theorem longer_cap {m : WMem α} {r : Msg Nat} : Longer m { m with cap := m.cap ++ [r] } :=
  ⟨Nat.le_refl _, Nat.le_refl _, by simp, fun _ => Nat.le_refl _⟩

theorem longer_st {m : WMem α} {i : Nat} {r : Msg CState} : Longer m { m with st := upd m.st i (m.st i ++ [r]) } :=
  ⟨Nat.le_refl _, Nat.le_refl _, Nat.le_refl _, fun j => by
    simp only [upd_apply]; split
    · next h => subst h; simp
    · exact Nat.le_refl _⟩

theorem MsgsIn.res_append {m : WMem α} (h : MsgsIn m) {r : Msg Nat} (hr : r.view.In { m with res := m.res ++ [r] }) :
    MsgsIn { m with res := m.res ++ [r] } :=
  ⟨fun q hq => by
    rcases List.mem_append.1 hq with hq | hq
    · exact (h.res q hq).longer longer_res
    · rw [List.mem_singleton] at hq; subst hq; exact hr,
    fun q hq => (h.written q hq).longer longer_res, fun q hq => (h.cap q hq).longer longer_res,
    fun i q hq => (h.st i q hq).longer longer_res⟩

theorem MsgsIn.written_append {m : WMem α} (h : MsgsIn m) {r : Msg Nat} (hr : r.view.In { m with written := m.written ++ [r] }) :
    MsgsIn { m with written := m.written ++ [r] } :=
  ⟨fun q hq => (h.res q hq).longer longer_written, fun q hq => by
    rcases List.mem_append.1 hq with hq | hq
    · exact (h.written q hq).longer longer_written
    · rw [List.mem_singleton] at hq; subst hq; exact hr,
    fun q hq => (h.cap q hq).longer longer_written,
    fun i q hq => (h.st i q hq).longer longer_written⟩

theorem MsgsIn.cap_append {m : WMem α} (h : MsgsIn m) {r : Msg Nat} (hr : r.view.In { m with cap := m.cap ++ [r] }) :
    MsgsIn { m with cap := m.cap ++ [r] } :=
  ⟨fun q hq => (h.res q hq).longer longer_cap, fun q hq => (h.written q hq).longer longer_cap, fun q hq => by
    rcases List.mem_append.1 hq with hq | hq
    · exact (h.cap q hq).longer longer_cap
    · rw [List.mem_singleton] at hq; subst hq; exact hr,
    fun i q hq => (h.st i q hq).longer longer_cap⟩

theorem MsgsIn.st_append {m : WMem α} (h : MsgsIn m) {i : Nat} {r : Msg CState}
    (hr : r.view.In { m with st := upd m.st i (m.st i ++ [r]) }) :
    MsgsIn { m with st := upd m.st i (m.st i ++ [r]) } :=
  ⟨fun q hq => (h.res q hq).longer longer_st, fun q hq => (h.written q hq).longer longer_st,
    fun q hq => (h.cap q hq).longer longer_st, fun j q hq => by
      change q ∈ upd m.st i _ j at hq
      rw [upd_apply] at hq
      split at hq
      · next hj =>
        subst hj
        rcases List.mem_append.1 hq with hq | hq
        · exact (h.st _ q hq).longer longer_st
        · rw [List.mem_singleton] at hq; subst hq; exact hr
      · exact (h.st j q hq).longer longer_st⟩

theorem exec_in {a : Act α} {t : Nat} {V V' : View} {m m' : WMem α} {b : a.Resp} (he : exec a t V m = .ok V' m' b)
    (hV : V.In m) (hM : MsgsIn m) : V'.In m' ∧ MsgsIn m' ∧ Longer m m' := by
  cases a with
  | resFetchAdd k o =>
    simp only [exec] at he
    split at he
    · next r hp hr =>
      cases he
      obtain ⟨-, ht⟩ := place_last hp
      have h1 : ((V.read o r).atRes (t + 1)).In { m with res := m.res ++ [⟨r.val + k, ((((V.read o r).atRes (t + 1)).sent o).join r.view), true⟩] } := by
        refine ((hV.read (hM.res r (mem_of_some hr))).longer longer_res).atRes ?_
        simp; omega
      refine ⟨h1, hM.res_append (h1.sent.join ((hM.res r (mem_of_some hr)).longer longer_res)), longer_res⟩
    · cases he
    · cases he
  | resLoad o =>
    simp only [exec] at he
    split at he
    · next r hr =>
      split at he
      · cases he; exact ⟨(hV.read (hM.res r (mem_of_some hr))).atRes (lt_of_some hr), hM, .refl _⟩
      · cases he
    · cases he
  | writtenLoad o =>
    simp only [exec] at he
    split at he
    · next r hr =>
      split at he
      · cases he; exact ⟨(hV.read (hM.written r (mem_of_some hr))).atWritten (lt_of_some hr), hM, .refl _⟩
      · cases he
    · cases he
  | writtenFetchMax k o =>
    simp only [exec] at he
    split at he
    · next r hp hr =>
      cases he
      obtain ⟨-, ht⟩ := place_last hp
      have h1 : ((V.read o r).atWritten (t + 1)).In { m with written := m.written ++ [⟨max r.val k, ((((V.read o r).atWritten (t + 1)).sent o).join r.view), true⟩] } := by
        refine ((hV.read (hM.written r (mem_of_some hr))).longer longer_written).atWritten ?_
        simp; omega
      refine ⟨h1, hM.written_append (h1.sent.join ((hM.written r (mem_of_some hr)).longer longer_written)), longer_written⟩
    · cases he
    · cases he
  | capLoad o =>
    simp only [exec] at he
    split at he
    · next r hr =>
      split at he
      · cases he; exact ⟨(hV.read (hM.cap r (mem_of_some hr))).atCap (lt_of_some hr), hM, .refl _⟩
      · cases he
    · cases he
  | maxCapLoad => simp only [exec] at he; cases he; exact ⟨hV, hM, .refl _⟩
  | growAlloc k =>
    simp only [exec] at he
    split at he
    · cases he
      exact ⟨⟨hV.res, hV.written, hV.cap, hV.st⟩, ⟨fun r hr => ⟨(hM.res r hr).res, (hM.res r hr).written, (hM.res r hr).cap, (hM.res r hr).st⟩,
        fun r hr => ⟨(hM.written r hr).res, (hM.written r hr).written, (hM.written r hr).cap, (hM.written r hr).st⟩,
        fun r hr => ⟨(hM.cap r hr).res, (hM.cap r hr).written, (hM.cap r hr).cap, (hM.cap r hr).st⟩,
        fun i r hr => ⟨(hM.st i r hr).res, (hM.st i r hr).written, (hM.st i r hr).cap, (hM.st i r hr).st⟩⟩,
        ⟨Nat.le_refl _, Nat.le_refl _, Nat.le_refl _, fun _ => Nat.le_refl _⟩⟩
    · cases he
  | growPublish o =>
    simp only [exec] at he
    split at he
    · split at he
      · next hp =>
        cases he
        obtain ⟨-, ht⟩ := place_last hp
        have h1 : (V.atCap (t + 1)).In { m with cap := m.cap ++ [⟨m.alloc, (V.atCap (t + 1)).sent o, false⟩] } := by
          refine (hV.longer longer_cap).atCap ?_
          simp; omega
        exact ⟨h1, hM.cap_append h1.sent, longer_cap⟩
      · cases he
      · cases he
    · cases he
  | stLoad i o =>
    simp only [exec] at he
    split at he
    · split at he
      · next r hr =>
        split at he
        · cases he; exact ⟨(hV.read (hM.st i r (mem_of_some hr))).atSt (lt_of_some hr), hM, .refl _⟩
        · cases he
      · cases he
    · cases he
  | stCas i e s ok fail =>
    simp only [exec] at he
    split at he
    · split at he
      · next r hr =>
        split at he
        · split at he
          · next hp =>
            cases he
            obtain ⟨-, ht⟩ := place_last hp
            have h1 : ((V.read ok r).atSt i (t + 1)).In { m with st := upd m.st i (m.st i ++ [⟨s, (((V.read ok r).atSt i (t + 1)).sent ok).join r.view, true⟩]) } := by
              refine ((hV.read (hM.st i r (mem_of_some hr))).longer longer_st).atSt ?_
              simp; omega
            exact ⟨h1, hM.st_append (h1.sent.join ((hM.st i r (mem_of_some hr)).longer longer_st)), longer_st⟩
          · cases he
          · cases he
        · split at he
          · cases he; exact ⟨(hV.read (hM.st i r (mem_of_some hr))).atSt (lt_of_some hr), hM, .refl _⟩
          · cases he
      · cases he
    · cases he
  | stStore i s o =>
    simp only [exec] at he
    split at he
    · split at he
      · next hp =>
        cases he
        obtain ⟨-, ht⟩ := place_last hp
        have h1 : (V.atSt i (t + 1)).In { m with st := upd m.st i (m.st i ++ [⟨s, (V.atSt i (t + 1)).sent o, false⟩]) } := by
          refine (hV.longer longer_st).atSt ?_
          simp; omega
        exact ⟨h1, hM.st_append h1.sent, longer_st⟩
      · cases he
      · cases he
    · cases he
  | valRead i =>
    simp only [exec] at he
    split at he
    · split at he
      · split at he
        · cases he
          exact ⟨⟨hV.res, hV.written, hV.cap, hV.st⟩, ⟨fun r hr => ⟨(hM.res r hr).res, (hM.res r hr).written, (hM.res r hr).cap, (hM.res r hr).st⟩,
            fun r hr => ⟨(hM.written r hr).res, (hM.written r hr).written, (hM.written r hr).cap, (hM.written r hr).st⟩,
            fun r hr => ⟨(hM.cap r hr).res, (hM.cap r hr).written, (hM.cap r hr).cap, (hM.cap r hr).st⟩,
            fun i r hr => ⟨(hM.st i r hr).res, (hM.st i r hr).written, (hM.st i r hr).cap, (hM.st i r hr).st⟩⟩,
            ⟨Nat.le_refl _, Nat.le_refl _, Nat.le_refl _, fun _ => Nat.le_refl _⟩⟩
        · cases he
      · cases he
    · cases he
  | valWrite i v =>
    simp only [exec] at he
    split at he
    · split at he
      · cases he
        exact ⟨⟨hV.res, hV.written, hV.cap, hV.st⟩, ⟨fun r hr => ⟨(hM.res r hr).res, (hM.res r hr).written, (hM.res r hr).cap, (hM.res r hr).st⟩,
          fun r hr => ⟨(hM.written r hr).res, (hM.written r hr).written, (hM.written r hr).cap, (hM.written r hr).st⟩,
          fun r hr => ⟨(hM.cap r hr).res, (hM.cap r hr).written, (hM.cap r hr).cap, (hM.cap r hr).st⟩,
          fun i r hr => ⟨(hM.st i r hr).res, (hM.st i r hr).written, (hM.st i r hr).cap, (hM.st i r hr).st⟩⟩,
          ⟨Nat.le_refl _, Nat.le_refl _, Nat.le_refl _, fun _ => Nat.le_refl _⟩⟩
      · cases he
    · cases he
  | valSwap i j =>
    simp only [exec] at he
    split at he
    · split at he
      · cases he
      · split at he
        · split at he
          · cases he
            exact ⟨⟨hV.res, hV.written, hV.cap, hV.st⟩, ⟨fun r hr => ⟨(hM.res r hr).res, (hM.res r hr).written, (hM.res r hr).cap, (hM.res r hr).st⟩,
              fun r hr => ⟨(hM.written r hr).res, (hM.written r hr).written, (hM.written r hr).cap, (hM.written r hr).st⟩,
              fun r hr => ⟨(hM.cap r hr).res, (hM.cap r hr).written, (hM.cap r hr).cap, (hM.cap r hr).st⟩,
              fun i r hr => ⟨(hM.st i r hr).res, (hM.st i r hr).written, (hM.st i r hr).cap, (hM.st i r hr).st⟩⟩,
              ⟨Nat.le_refl _, Nat.le_refl _, Nat.le_refl _, fun _ => Nat.le_refl _⟩⟩
          · cases he
        · cases he
    · cases he

/-- All views point to existing messages. -/
structure BInv (κ : Cfg α β) : Prop where
  bot : View.bot.In κ.mem
  msgs : MsgsIn κ.mem
  views : ∀ c r, κ.calls c = some r → r.view.In κ.mem

theorem ended_in {κ : Cfg α β} (h : BInv κ) {H : List Cid} {V : View} (he : Ended κ H V) : V.In κ.mem := by
  induction he with
  | nil => exact h.bot
  | done hc _ _ ih => exact (h.views _ _ hc).join ih
  | panicked hc _ _ ih => exact (h.views _ _ hc).join ih

theorem binv {m : Mem α} {κ : Cfg α β} (h : Reach m κ) : BInv κ := by
  induction h with
  | init =>
    have hb : View.bot.In (WMem.init m) := ⟨by simp [WMem.init, View.bot], by simp [WMem.init, View.bot], by simp [WMem.init, View.bot],
      fun i => by simp [WMem.init, View.bot]⟩
    refine ⟨hb, ⟨?_, ?_, ?_, ?_⟩, fun c r hc => by cases hc⟩
    · intro r hr; change r ∈ [_] at hr; rw [List.mem_singleton] at hr; subst hr; exact hb
    · intro r hr; change r ∈ [_] at hr; rw [List.mem_singleton] at hr; subst hr; exact hb
    · intro r hr; change r ∈ [_] at hr; rw [List.mem_singleton] at hr; subst hr; exact hb
    · intro i r hr; change r ∈ [_] at hr; rw [List.mem_singleton] at hr; subst hr; exact hb
  | @step κ κ' _ hs ih =>
    cases hs with
    | call op H V hH hn hp =>
      refine ⟨ih.bot, ih.msgs, fun c r hc => ?_⟩
      change upd κ.calls κ.next _ c = some r at hc
      rw [upd_apply] at hc
      split at hc
      · cases hc; exact ended_in ih hH
      · exact ih.views c r hc
    | act c r a again k t V m b hc hr he =>
      obtain ⟨h1, h2, h3⟩ := exec_in he (ih.views c r hc) ih.msgs
      refine ⟨ih.bot.longer h3, h2, fun d q hd => ?_⟩
      change upd κ.calls c _ d = some q at hd
      rw [upd_apply] at hd
      split at hd
      · cases hd; exact h1
      · exact (ih.views d q hd).longer h3
    | bad c r a again k t x hc hr he => exact ⟨ih.bot, ih.msgs, ih.views⟩
    | ret c r x hc hr =>
      refine ⟨ih.bot, ih.msgs, fun d q hd => ?_⟩
      change upd κ.calls c _ d = some q at hd
      rw [upd_apply] at hd
      split at hd
      · cases hd; exact ih.views c r hc
      · exact ih.views d q hd
    | panic c r k hc hr =>
      refine ⟨ih.bot, ih.msgs, fun d q hd => ?_⟩
      change upd κ.calls c _ d = some q at hd
      rw [upd_apply] at hd
      split at hd
      · cases hd; exact ih.views c r hc
      · exact ih.views d q hd
    | reserveMax q hi =>
      have key : ∀ {V : View}, V.In κ.mem → V.In (κ.mem.reserveMax q) := fun h => { h with }
      exact ⟨key ih.bot, ⟨fun r hr => key (ih.msgs.1 r hr), fun r hr => key (ih.msgs.2 r hr), fun r hr => key (ih.msgs.3 r hr),
        fun i r hr => key (ih.msgs.4 i r hr)⟩, fun c r hc => key (ih.views c r hc)⟩

/-! ## every action can be performed, reading the newest message -/

theorem place_newest {h : List (Msg γ)} {known : Nat} (hk : known < h.length) : place h known (h.length - 1) = .last := by
  unfold place
  rw [if_pos ⟨by omega, by omega⟩, show h.length - 1 + 1 = h.length by omega, List.getElem?_eq_none (Nat.le_refl _)]

theorem newest_some {h : List γ} {known : Nat} (hk : known < h.length) : ∃ r, h[h.length - 1]? = some r ∧ h.getLast? = some r := by
  refine ⟨h[h.length - 1]'(by omega), List.getElem?_eq_getElem _, ?_⟩
  rw [List.getLast?_eq_getElem?]
  exact List.getElem?_eq_getElem _

/-- The response when the newest message is read. -/
def Newest (m : WMem α) : (a : Act α) → a.Resp → Prop
  | .capLoad _, (b : Nat) => b = lastVal m.cap
  | .stCas i _ _ _ _, (r : Option CState) => ∀ s, r = some s → ∃ q, (m.st i).getLast? = some q ∧ q.val = s
  | _, _ => True

theorem exec_newest {m : WMem α} {V : View} {K : Cid → Know} {W : Cid → View} {c : Cid} {a : Act α} (hV : V.In m) (hW : W c = V)
    (hG : GInv D m K) (hK : ∀ d, KInv D m (W d) (K d)) (hp : Pre D m.maxCap (K c) a) :
    ∃ t V' m' b, exec a t V m = .ok V' m' b ∧ Newest m a b := by
  have hnb : ∀ t x, exec a t V m ≠ .bad x := fun t x => by rw [← hW]; exact exec_ok hG hK hp
  cases a with
  | resFetchAdd k o =>
    obtain ⟨r, hr, -⟩ := newest_some hV.res
    refine ⟨m.res.length - 1, ?_⟩
    simp only [exec, place_newest hV.res, hr]
    exact ⟨_, _, _, rfl, trivial⟩
  | resLoad o =>
    obtain ⟨r, hr, -⟩ := newest_some hV.res
    refine ⟨m.res.length - 1, ?_⟩
    have := hV.res
    simp only [exec, hr, if_pos (show V.res ≤ m.res.length - 1 by omega)]
    exact ⟨_, _, _, rfl, trivial⟩
  | writtenLoad o =>
    obtain ⟨r, hr, -⟩ := newest_some hV.written
    refine ⟨m.written.length - 1, ?_⟩
    have := hV.written
    simp only [exec, hr, if_pos (show V.written ≤ m.written.length - 1 by omega)]
    exact ⟨_, _, _, rfl, trivial⟩
  | writtenFetchMax k o =>
    obtain ⟨r, hr, -⟩ := newest_some hV.written
    refine ⟨m.written.length - 1, ?_⟩
    simp only [exec, place_newest hV.written, hr]
    exact ⟨_, _, _, rfl, trivial⟩
  | capLoad o =>
    obtain ⟨r, hr, hl⟩ := newest_some hV.cap
    refine ⟨m.cap.length - 1, ?_⟩
    have := hV.cap
    simp only [exec, hr, if_pos (show V.cap ≤ m.cap.length - 1 by omega)]
    refine ⟨_, _, _, rfl, ?_⟩
    show r.val = lastVal m.cap
    unfold lastVal; rw [hl]
  | maxCapLoad => exact ⟨0, _, _, _, rfl, trivial⟩
  | growAlloc k =>
    refine ⟨0, ?_⟩
    have := hnb 0
    simp only [exec] at this ⊢
    split
    · exact ⟨_, _, _, rfl, trivial⟩
    · next h => rw [if_neg h] at this; exact absurd rfl (this _)
  | growPublish o =>
    refine ⟨m.cap.length - 1, ?_⟩
    have := hnb (m.cap.length - 1)
    simp only [exec] at this ⊢
    split
    · simp only [place_newest hV.cap]
      exact ⟨_, _, _, rfl, trivial⟩
    · next h => rw [if_neg h] at this; exact absurd rfl (this _)
  | stLoad i o =>
    obtain ⟨r, hr, -⟩ := newest_some (hV.st i)
    refine ⟨(m.st i).length - 1, ?_⟩
    have hb := hnb ((m.st i).length - 1)
    have := hV.st i
    simp only [exec, hr, if_pos (show V.st i ≤ (m.st i).length - 1 by omega)] at hb ⊢
    split
    · exact ⟨_, _, _, rfl, trivial⟩
    · next h => rw [if_neg h] at hb; exact absurd rfl (hb _)
  | stCas i e s ok fail =>
    obtain ⟨r, hr, hl⟩ := newest_some (hV.st i)
    refine ⟨(m.st i).length - 1, ?_⟩
    have hb := hnb ((m.st i).length - 1)
    have := hV.st i
    simp only [exec, hr, place_newest (hV.st i), if_pos (show V.st i ≤ (m.st i).length - 1 by omega)] at hb ⊢
    split
    · split
      · exact ⟨_, _, _, rfl, fun s hs => by cases hs⟩
      · exact ⟨_, _, _, rfl, fun s hs => ⟨r, hl, by cases hs; rfl⟩⟩
    · next h => rw [if_neg h] at hb; exact absurd rfl (hb _)
  | stStore i s o =>
    refine ⟨(m.st i).length - 1, ?_⟩
    have hb := hnb ((m.st i).length - 1)
    simp only [exec, place_newest (hV.st i)] at hb ⊢
    split
    · exact ⟨_, _, _, rfl, trivial⟩
    · next h => rw [if_neg h] at hb; exact absurd rfl (hb _)
  | valRead i =>
    refine ⟨0, ?_⟩
    have hb := hnb 0
    rcases he : exec (.valRead i : Act α) 0 V m with _ | x | ⟨V', m', b⟩
    · simp only [exec] at he
      split at he
      · split at he
        · split at he <;> cases he
        · cases he
      · cases he
    · exact absurd he (hb x)
    · exact ⟨V', m', b, rfl, trivial⟩
  | valWrite i v =>
    refine ⟨0, ?_⟩
    have hb := hnb 0
    rcases he : exec (.valWrite i v : Act α) 0 V m with _ | x | ⟨V', m', b⟩
    · simp only [exec] at he
      split at he
      · split at he <;> cases he
      · cases he
    · exact absurd he (hb x)
    · exact ⟨V', m', b, rfl, trivial⟩
  | valSwap i j =>
    refine ⟨0, ?_⟩
    have hb := hnb 0
    rcases he : exec (.valSwap i j : Act α) 0 V m with _ | x | ⟨V', m', b⟩
    · simp only [exec] at he
      split at he
      · split at he
        · cases he
        · split at he
          · split at he <;> cases he
          · cases he
      · cases he
    · exact absurd he (hb x)
    · exact ⟨V', m', b, rfl, trivial⟩

/-! ## who owns a position, who holds an element -/

/-- The newest state of position `i` is `RESERVED`. -/
def Locked (m : WMem α) (i : Nat) : Prop := ∃ r, (m.st i).getLast? = some r ∧ r.val = .RESERVED

/-- What an action does to `len_reserved`, the states and the capacity. -/
structure Owns (m m' : WMem α) (K K' : Know) : Prop where
  cover : ∀ i, i < lastVal m'.res → i < lastVal m.res ∨ K'.R i
  r : ∀ i, K.R i → K'.R i
  new : ∀ i, K'.R i → K.R i ∨ lastVal m.res ≤ i
  held : ∀ i, Locked m' i → Locked m i ∨ K'.L i
  l : ∀ i, K.L i → Locked m' i → K'.L i
  cap : m'.cap = m.cap ∨ ∃ q, m'.cap = m.cap ++ [q]

theorem Owns.same {m m' : WMem α} {K K' : Know} (h1 : m'.res = m.res) (h2 : m'.st = m.st) (h3 : m'.cap = m.cap ∨ ∃ q, m'.cap = m.cap ++ [q])
    (hR : K'.R = K.R) (hL : K'.L = K.L) : Owns m m' K K' where
  cover i hi := by rw [h1] at hi; exact .inl hi
  r i hi := by rw [hR]; exact hi
  new i hi := .inl (by rw [hR] at hi; exact hi)
  held i hi := by unfold Locked at hi; rw [h2] at hi; exact .inl hi
  l i hi _ := by rw [hL]; exact hi
  cap := h3

theorem exec_own {a : Act α} {t : Nat} {V V' : View} {m m' : WMem α} {b : a.Resp} {K : Know} (he : exec a t V m = .ok V' m' b)
    (hp : Pre D mx K a) : Owns m m' K (Weak.next K a b) := by
  cases a with
  | resFetchAdd k o =>
    simp only [exec] at he
    split at he
    · next r hpl hr =>
      cases he
      have hl := lastVal_of (place_last hpl).2 hr
      refine ⟨fun i hi => ?_, fun i hi => .inl hi, fun i hi => hi.imp id fun h => by rw [hl]; exact h.1, fun i hi => .inl hi,
        fun i hi _ => hi, .inl rfl⟩
      change i < lastVal (m.res ++ [_]) at hi
      rw [lastVal_append] at hi
      rcases Nat.lt_or_ge i (lastVal m.res) with h | h
      · exact .inl h
      · exact .inr (.inr ⟨by rw [hl] at h; exact h, hi⟩)
    · cases he
    · cases he
  | resLoad o =>
    simp only [exec] at he
    split at he
    · split at he
      · cases he; exact .same rfl rfl (.inl rfl) rfl rfl
      · cases he
    · cases he
  | writtenLoad o =>
    simp only [exec] at he
    split at he
    · split at he
      · cases he; exact .same rfl rfl (.inl rfl) rfl rfl
      · cases he
    · cases he
  | writtenFetchMax k o =>
    simp only [exec] at he
    split at he
    · cases he; exact .same rfl rfl (.inl rfl) rfl rfl
    · cases he
    · cases he
  | capLoad o =>
    simp only [exec] at he
    split at he
    · split at he
      · cases he; exact .same rfl rfl (.inl rfl) rfl rfl
      · cases he
    · cases he
  | maxCapLoad => simp only [exec] at he; cases he; exact .same rfl rfl (.inl rfl) rfl rfl
  | growAlloc k =>
    simp only [exec] at he
    split at he
    · cases he; exact .same rfl rfl (.inl rfl) rfl rfl
    · cases he
  | growPublish o =>
    simp only [exec] at he
    split at he
    · split at he
      · cases he; exact .same rfl rfl (.inr ⟨_, rfl⟩) rfl rfl
      · cases he
      · cases he
    · cases he
  | stLoad i o =>
    simp only [exec] at he
    split at he
    · split at he
      · split at he
        · cases he; exact .same rfl rfl (.inl rfl) rfl rfl
        · cases he
      · cases he
    · cases he
  | stCas i e s ok fail =>
    simp only [exec] at he
    split at he
    · split at he
      · split at he
        · split at he
          · cases he
            refine ⟨fun i hi => .inl hi, fun i hi => hi, fun i hi => .inl hi, fun j hj => ?_, fun j hj _ => .inl hj, .inl rfl⟩
            rcases Decidable.em (j = i) with h | h
            · exact .inr (.inr h)
            · unfold Locked at hj
              simp only [upd_apply, if_neg h] at hj
              exact .inl hj
          · cases he
          · cases he
        · split at he
          · cases he; exact .same rfl rfl (.inl rfl) rfl rfl
          · cases he
      · cases he
    · cases he
  | stStore i s o =>
    simp only [exec] at he
    split at he
    · split at he
      · cases he
        have key : ∀ j, Locked { m with st := upd m.st i (m.st i ++ [⟨s, (V.atSt i (t + 1)).sent o, false⟩]) } j → j ≠ i ∧ Locked m j := by
          intro j hj
          unfold Locked at hj
          simp only [upd_apply] at hj
          split at hj
          · obtain ⟨r, hr, hv⟩ := hj
            rw [List.getLast?_append] at hr
            simp only [List.getLast?_singleton, Option.some_or, Option.some.injEq] at hr
            subst hr
            rw [show s = .SOME from hp.2.1] at hv; cases hv
          · next h => exact ⟨h, hj⟩
        exact ⟨fun i hi => .inl hi, fun i hi => hi, fun i hi => .inl hi, fun j hj => .inl (key j hj).2, fun j hj h => ⟨hj, (key j h).1⟩, .inl rfl⟩
      · cases he
      · cases he
    · cases he
  | valRead i =>
    simp only [exec] at he
    split at he
    · split at he
      · split at he
        · cases he; exact .same rfl rfl (.inl rfl) rfl rfl
        · cases he
      · cases he
    · cases he
  | valWrite i v =>
    simp only [exec] at he
    split at he
    · split at he
      · cases he; exact .same rfl rfl (.inl rfl) rfl rfl
      · cases he
    · cases he
  | valSwap i j =>
    simp only [exec] at he
    split at he
    · split at he
      · cases he
      · split at he
        · split at he
          · cases he; exact .same rfl rfl (.inl rfl) rfl rfl
          · cases he
        · cases he
    · cases he

/-- Every reserved position has an owner, every locked element has a holder. -/
structure PInv (n : Nat) (κ : Cfg α β) (K : Cid → Know) : Prop where
  cover : ∀ i, n ≤ i → i < lastVal κ.mem.res → ∃ c, (K c).R i
  held : ∀ i, Locked κ.mem i → ∃ c, (K c).L i
  idle : ∀ d, κ.calls d = none → ∀ i, ¬ (K d).R i ∧ ¬ (K d).L i

/-- What stays. -/
structure Later (κ κ' : Cfg α β) (K K' : Cid → Know) : Prop where
  r : ∀ d i, (K d).R i → (K' d).R i
  new : ∀ d i, (K' d).R i → (K d).R i ∨ lastVal κ.mem.res ≤ i
  l : ∀ d i, (K d).L i → Locked κ'.mem i → (K' d).L i
  cap : lastVal κ.mem.cap ≤ lastVal κ'.mem.cap
  own : ∀ d, κ'.calls d = κ.calls d → K' d = K d
  came : ∀ d, K' d = K d ∨ (κ.calls d = none ∧ ∀ i, ¬ (K' d).R i ∧ ¬ (K' d).L i) ∨
    ∃ r a again k b, κ.calls d = some r ∧ r.status = .running (.step a again k) ∧ again b = false ∧ K' d = next (K d) a b

variable {κ κ' : Cfg α β} {K K0 : Cid → Know}

theorem Later.refl (κ : Cfg α β) (K : Cid → Know) : Later κ κ K K := ⟨fun _ _ h => h, fun _ _ h => .inl h, fun _ _ h _ => h, Nat.le_refl _, fun _ _ => rfl, fun _ => .inl rfl⟩

theorem PInv.update (P : PInv n κ K) {c : Cid} {r : Rec α β} (hc : κ.calls c = some r) {m : WMem α} {q : Rec α β} {K1 : Know}
    (ho : Owns κ.mem m (K c) K1) (hm : Mono m.cap) (hne : κ.mem.cap ≠ []) (hq : q = r → K1 = K c)
    (ha : K1 = K c ∨ ∃ a again k b, r.status = .running (.step a again k) ∧ again b = false ∧ K1 = next (K c) a b) :
    PInv n { κ with mem := m, calls := upd κ.calls c (some q) } (upd K c K1) ∧
      Later κ { κ with mem := m, calls := upd κ.calls c (some q) } K (upd K c K1) := by
  refine ⟨⟨fun i h1 h2 => ?_, fun i hi => ?_, fun d hd i => ?_⟩, fun d i hi => ?_, fun d i hi => ?_, fun d i hi hl => ?_, ?_, fun d hd => ?_, fun d => ?_⟩
  · rcases ho.cover i h2 with h | h
    · obtain ⟨d, hd⟩ := P.cover i h1 h
      refine ⟨d, ?_⟩
      rw [upd_apply]
      split
      · next he => subst he; exact ho.r i hd
      · exact hd
    · exact ⟨c, by rw [upd_apply, if_pos rfl]; exact h⟩
  · rcases ho.held i hi with h | h
    · obtain ⟨d, hd⟩ := P.held i h
      refine ⟨d, ?_⟩
      rw [upd_apply]
      split
      · next he => subst he; exact ho.l i hd hi
      · exact hd
    · exact ⟨c, by rw [upd_apply, if_pos rfl]; exact h⟩
  · change upd κ.calls c _ d = none at hd
    rw [upd_apply] at hd
    split at hd
    · cases hd
    · next he => rw [upd_apply, if_neg he]; exact P.idle d hd i
  · rw [upd_apply]
    split
    · next he => subst he; exact ho.r i hi
    · exact hi
  · rw [upd_apply] at hi
    split at hi
    · next he => subst he; exact ho.new i hi
    · exact .inl hi
  · rw [upd_apply]
    split
    · next he => subst he; exact ho.l i hi hl
    · exact hi
  · show lastVal κ.mem.cap ≤ lastVal m.cap
    rcases ho.cap with h | ⟨q, h⟩
    · exact Nat.le_of_eq (by rw [h])
    · have hlen : 0 < κ.mem.cap.length := List.length_pos_iff.2 hne
      obtain ⟨x, h1, h2⟩ := newest_some hlen
      have := hm.last (t := κ.mem.cap.length - 1) (r := x) (by rw [h]; exact getElem?_snoc_old h1)
      unfold lastVal
      rw [h2]
      exact this
  · change upd κ.calls c _ d = _ at hd
    rw [upd_apply] at hd ⊢
    split
    · next he =>
      subst he
      rw [if_pos rfl, hc, Option.some.injEq] at hd
      exact hq hd
    · rfl
  · rw [upd_apply]
    split
    · next he =>
      subst he
      rcases ha with h | ⟨a, again, k, b, h⟩
      · exact .inl h
      · exact .inr (.inr ⟨r, a, again, k, b, hc, h⟩)
    · exact .inl rfl

theorem Owns.refl (m : WMem α) (K : Know) : Owns m m K K := .same rfl rfl (.inl rfl) rfl rfl

theorem PInv.step (h : WInv D mx n κ K K0) (P : PInv n κ K) (hs : Step κ κ') (ho : ∀ c op, κ'.Called c op → Allowed D op)
    (hx : κ'.Exceeds mx) : ∃ K' K0', WInv D mx n κ' K' K0' ∧ PInv n κ' K' ∧ Later κ κ' K K' := by
  cases hs with
  | call op H V hH hn hp =>
    obtain ⟨K2, h1, -, h2⟩ := h.call (ho κ.next op ⟨_, upd_same _ _ _, rfl⟩) hH hn hp
    have hnew := h.new κ.next (Nat.le_refl _)
    have key : ∀ d i, (K d).R i → (upd K κ.next K2 d).R i := by
      intro d i hi
      rw [upd_apply]; split
      · next he => rw [he, hnew.2] at hi; exact hi.elim
      · exact hi
    have key' : ∀ d i, (K d).L i → (upd K κ.next K2 d).L i := by
      intro d i hi
      rw [upd_apply]; split
      · next he => rw [he, hnew.2] at hi; exact hi.elim
      · exact hi
    refine ⟨_, _, h2, ⟨fun i h3 h4 => ?_, fun i hi => ?_, fun d hd i => ?_⟩, key,
      fun d i hi => ?_, fun d i hi _ => key' d i hi, Nat.le_refl _, fun d hd => ?_, fun d => ?_⟩
    · obtain ⟨d, hd⟩ := P.cover i h3 h4
      exact ⟨d, key d i hd⟩
    · obtain ⟨d, hd⟩ := P.held i hi
      exact ⟨d, key' d i hd⟩
    · change upd κ.calls κ.next _ d = none at hd
      rw [upd_apply] at hd
      split at hd
      · cases hd
      · next he => rw [upd_apply, if_neg he]; exact P.idle d hd i
    · rw [upd_apply] at hi
      split at hi
      · exact absurd hi (h1.r i)
      · exact .inl hi
    · change upd κ.calls κ.next _ d = _ at hd
      rw [upd_apply] at hd ⊢
      split
      · next he => rw [if_pos he, he, hnew.1] at hd; cases hd
      · rfl
    · rw [upd_apply]
      split
      · next he => exact .inr (.inl ⟨he ▸ hnew.1, fun i => ⟨h1.r i, h1.l i⟩⟩)
      · exact .inl rfl
  | act c r a again k t V m b hc hr he =>
    have hf := h.fits c r hc
    unfold Fits at hf
    rw [hr] at hf
    have hview := Cfg.viewOf_some hc
    have hown := exec_own he hf.1
    rw [← hview] at he
    have hpre : Pre D κ.mem.maxCap (K c) a := hf.1
    have hgood := exec_good h.g h.k hpre he
    have hcan : Can D κ.mem.maxCap (K c) a b := hgood.can
    obtain ⟨h1, h2⟩ := hf.2 b hcan
    rcases hab : again b with _ | _
    · refine ⟨upd K c (Weak.next (K c) a b), K0, ?_, P.update hc hown hgood.g.cap_mono h.g.cap_ne (fun hq => ?_) (.inr ⟨a, again, k, b, hr, hab, rfl⟩)⟩
      refine h.update hc ⟨_, hr⟩ hgood.max hgood.g hgood.k hgood.others (next_le _ _ _) ?_
      · exact h2 hab
      · have := congrArg Rec.status hq
        rw [hr] at this
        simp only [hab, Bool.false_eq_true, if_false, Status.running.injEq] at this
        exact absurd this (Prog.cont_ne _ a again k b rfl)
    · have hm := hgood.keeps (h1 hab)
      subst hm
      refine ⟨upd K c (K c), K0, ?_, P.update hc (.refl _ _) h.g.cap_mono h.g.cap_ne (fun _ => rfl) (.inl rfl)⟩
      refine h.update hc ⟨_, hr⟩ rfl (by rw [upd_self]; exact h.g) ((h.k c).mono hgood.le) (fun d _ => h.k d) (.refl _) ?_
      exact hf
  | bad c r a again k t x hc hr he =>
    have hf := h.fits c r hc
    unfold Fits at hf
    rw [hr] at hf
    rw [← Cfg.viewOf_some hc] at he
    have hpre : Pre D κ.mem.maxCap (K c) a := hf.1
    exact absurd he (exec_ok h.g h.k hpre)
  | ret c r x hc hr =>
    have hf := h.fits c r hc
    unfold Fits at hf
    rw [hr] at hf
    refine ⟨upd K c (K c), K0, ?_, P.update (m := κ.mem) hc (.refl _ _) h.g.cap_mono h.g.cap_ne (fun _ => rfl) (.inl rfl)⟩
    have := h.k c
    rw [Cfg.viewOf_some hc] at this
    exact h.update hc (V := r.view) (s := .done x) ⟨_, hr⟩ rfl (by rw [upd_self]; exact h.g) this (fun d _ => h.k d) (.refl _) hf
  | panic c r k hc hr =>
    have hf := h.fits c r hc
    unfold Fits at hf
    rw [hr] at hf
    refine ⟨upd K c (K c), K0, ?_, P.update (m := κ.mem) hc (.refl _ _) h.g.cap_mono h.g.cap_ne (fun _ => rfl) (.inl rfl)⟩
    have := h.k c
    rw [Cfg.viewOf_some hc] at this
    exact h.update hc (V := r.view) (s := .panicked k) ⟨_, hr⟩ rfl (by rw [upd_self]; exact h.g) this (fun d _ => h.k d) (.refl _) (Fits.panicked hx hf)
  | reserveMax q hi => exact ⟨K, K0, h.reserveMax q hi, ⟨P.cover, P.held, P.idle⟩, fun _ _ h => h, fun _ _ h => .inl h, fun _ _ h _ => h, Nat.le_refl _,
      fun _ _ => rfl, fun _ => .inl rfl⟩

theorem pinv_init {m : Mem α} {l : List α} (hm : InitMem m l) :
    PInv l.length (Cfg.init m : Cfg α β) (upd (fun _ => .empty) 0 (.start l.length)) where
  cover i h1 h2 := by
    have : lastVal (WMem.init m).res = l.length := hm.reserved
    change i < lastVal (WMem.init m).res at h2
    omega
  held i hi := by
    obtain ⟨r, hr, hv⟩ := hi
    change [Msg.init (m.st i)].getLast? = some r at hr
    simp only [List.getLast?_singleton, Option.some.injEq] at hr
    subst hr
    change m.st i = .RESERVED at hv
    rw [hm.st] at hv
    split at hv <;> cases hv
  idle d _ i := by rw [upd_apply]; split <;> exact ⟨fun h => h, fun h => h⟩

theorem pinv {m : Mem α} {l : List α} (hm : InitMem m l) (h : Reach m κ) (ho : ∀ c op, κ.Called c op → Allowed D op) :
    ∃ K K0, WInv D m.maxCap l.length κ K K0 ∧ PInv l.length κ K := by
  induction h with
  | init => exact ⟨_, _, winv_init hm, pinv_init hm⟩
  | step hr hs ih =>
    obtain ⟨K, K0, hi, hP⟩ := ih (fun c op hc => ho c op (Step.called hs (Reach.new hr) hc))
    obtain ⟨K', K0', h1, h2, -⟩ := PInv.step hi hP hs ho (Reach.exceeds (.step hr hs) hm ho)
    exact ⟨K', K0', h1, h2⟩

/-! ## why a call is blocked -/

/-- A call that knows `K` and whose next action is `a` waits. -/
def Waits (D : Mode) (m : WMem α) (K : Know) : Act α → Prop
  | .capLoad _ => (∃ i, K.R i) ∧ ∀ i, K.R i → lastVal m.cap < i ∧ i < m.maxCap
  | .stCas i _ _ _ _ => Locked m i ∧ K.A i ∧ (∀ j, ¬ K.R j) ∧ ∀ j, K.L j → D.nest j i
  | _ => False

theorem Cfg.at_some {c : Cid} {r : Rec α β} (h : κ.calls c = some r) : κ.at' c = some r.status := by unfold Cfg.at'; rw [h]; rfl

theorem blocked_waits (h : WInv D mx n κ K K0) (hB : BInv κ) {c : Cid} (hb : κ.Blocked c) :
    ∃ r a again k, κ.calls c = some r ∧ r.status = .running (.step a again k) ∧ Waits D κ.mem (K c) a := by
  obtain ⟨⟨op, r, p, hc, -, hr⟩, hno⟩ := hb
  have hf := h.fits c r hc
  unfold Fits at hf
  rw [hr] at hf
  cases p with
  | ret x =>
    refine absurd ⟨⟨r, hc, .inr (.inl ⟨x, hr, rfl⟩)⟩, ?_⟩ (hno _)
    rw [Cfg.at_some hc, Cfg.at_some (upd_same _ _ _), hr]
    intro he; cases he
  | panic k =>
    refine absurd ⟨⟨r, hc, .inr (.inr ⟨k, hr, rfl⟩)⟩, ?_⟩ (hno _)
    rw [Cfg.at_some hc, Cfg.at_some (upd_same _ _ _), hr]
    intro he; cases he
  | step a again k =>
    refine ⟨r, a, again, k, hc, hr, ?_⟩
    have hpre : Pre D κ.mem.maxCap (K c) a := hf.1
    obtain ⟨t, V, m, b, he, hn⟩ := exec_newest (hB.views c r hc) (Cfg.viewOf_some hc) h.g h.k hpre
    have hab : again b = true := by
      rcases hab : again b with _ | _
      · refine absurd ⟨⟨r, hc, .inl ⟨a, again, k, t, V, m, b, hr, he, rfl⟩⟩, ?_⟩ (hno _)
        rw [Cfg.at_some hc, Cfg.at_some (upd_same _ _ _), hr, hab]
        intro heq
        simp only [Bool.false_eq_true, if_false, Option.some.injEq, Status.running.injEq] at heq
        exact Prog.cont_ne _ a again k b rfl heq
      · rfl
    have hgood := exec_good h.g h.k hpre (by rw [Cfg.viewOf_some hc]; exact he)
    have hcan : Can D κ.mem.maxCap (K c) a b := hgood.can
    have hk := (hf.2 b hcan).1 hab
    cases a with
    | capLoad o =>
      change b = lastVal κ.mem.cap at hn
      subst hn
      exact hk
    | stCas i e s ok fail =>
      refine ⟨hn _ hk.1, hpre.1, hk.2.1, hk.2.2⟩
    | _ => exact hk.elim

theorem running_of {c : Cid} {r : Rec α β} (_ : κ.calls c = some r) :
    (∃ p, r.status = .running p) ∨ (∃ x, r.status = .done x) ∨ ∃ k, r.status = .panicked k := by
  rcases hs : r.status with p | x | k
  · exact .inl ⟨p, rfl⟩
  · exact .inr (.inl ⟨x, rfl⟩)
  · exact .inr (.inr ⟨k, rfl⟩)

/-- Position `lastVal cap`, the next one to be allocated, has an owner if somebody waits for a later one. -/
theorem next_owner (h : WInv D mx n κ K K0) (P : PInv n κ K) {c : Cid} {i : Nat} (hi : (K c).R i) (hlt : lastVal κ.mem.cap < i) :
    ∃ d, (K d).R (lastVal κ.mem.cap) := by
  refine P.cover _ ?_ ?_
  · refine Nat.le_of_not_lt fun hn => ?_
    have := ((h.k 0).a _ (h.zero _ hn).2.1).2.1
    omega
  · have h1 := (h.k c).r_rk i hi
    have h2 := (h.k c).rk.1
    omega

/-- The owner of the next position to be allocated is still running. -/
theorem owner_running (h : WInv D mx n κ K K0) (P : PInv n κ K) (hg : κ.GrowthIntact mx) {c d : Cid} {i p : Nat} (hp : p = lastVal κ.mem.cap)
    (hd : (K d).R p) (hi : (K c).R i) (hlt : p < i) (him : i < κ.mem.maxCap) (hc : ∃ op, κ.Running c op) : ∃ op, κ.Running d op := by
  rcases hcd : κ.calls d with _ | r
  · exact absurd hd (P.idle d hcd p).1
  · have hA : ¬ (K d).A p := fun hA => by
      have := ((h.k d).a _ hA).2.1
      omega
    rcases running_of hcd with ⟨q, hq⟩ | ⟨x, hx⟩ | ⟨k, hk⟩
    · exact ⟨_, r, q, hcd, rfl, hq⟩
    · exact absurd ((h.done ⟨r, hcd, rfl, hx⟩).own p hd) hA
    · rcases (h.failed ⟨r, hcd, rfl, hk⟩).own with ⟨-, h1⟩ | ⟨h0, -, -, h1⟩ | ⟨-, -, f, h1, h2⟩
      · exact absurd (h1 p hd) hA
      · rw [hg.2 d r.op ⟨r, hcd, rfl, by rw [hk, h0]⟩] at him
        have := h.g.disjR c d i hi (h1 p i hd (Nat.le_of_lt hlt) him)
        subst this; exact hc
      · subst h2
        exact absurd ⟨r, hcd, h1, hk⟩ (hg.1 d f)

theorem owner_not_waiting {m : WMem α} {K : Know} {p : Nat} (hp : p = lastVal m.cap) (hR : K.R p) {a : Act α} : ¬ Waits D m K a := by
  intro hw
  cases a with
  | capLoad o => have := (hw.2 p hR).1; omega
  | stCas i e s ok fail => exact hw.2.2.1 p hR
  | _ => exact hw

/-- The holder of an element is still running. -/
theorem holder_running (h : WInv D mx n κ K K0) (P : PInv n κ K) {d : Cid} {i : Nat} (hd : (K d).L i) : ∃ op, κ.Running d op := by
  rcases hcd : κ.calls d with _ | r
  · exact absurd hd (P.idle d hcd i).2
  · rcases running_of hcd with ⟨q, hq⟩ | ⟨x, hx⟩ | ⟨k, hk⟩
    · exact ⟨_, r, q, hcd, rfl, hq⟩
    · exact absurd hd ((h.done ⟨r, hcd, rfl, hx⟩).l i)
    · exact absurd hd ((h.failed ⟨r, hcd, rfl, hk⟩).l i)

theorem alloc_bound (h : WInv D mx n κ K K0) {c : Cid} {i : Nat} (hi : (K c).A i) : i < κ.mem.maxCap := by
  have h1 := ((h.k c).a i hi).1
  unfold WMem.usable at h1
  rw [Bool.and_eq_true, decide_eq_true_eq] at h1
  have h2 := κ.mem.pol.good_le h.g.good
  omega

theorem not_stuck (h : WInv D mx n κ K K0) (P : PInv n κ K) (hB : BInv κ) (ho : D.ordered) (hg : κ.GrowthIntact mx) {c : Cid}
    (hc : ∃ op, κ.Running c op) : ∃ d, (∃ op, κ.Running d op) ∧ ¬ κ.Blocked d := by
  refine Classical.byContradiction fun hno => ?_
  have hall : ∀ d, (∃ op, κ.Running d op) → κ.Blocked d := fun d hd => Classical.byContradiction fun hn => hno ⟨d, hd, hn⟩
  have hcap : ∀ d, (∃ op, κ.Running d op) → ∀ o : MOrd, ¬ Waits D κ.mem (K d) (.capLoad o : Act α) := by
    intro d hd o ⟨⟨i, hi⟩, hw⟩
    obtain ⟨e, he⟩ := next_owner h P hi (hw i hi).1
    have hm := (hw i hi).2
    have hr := owner_running h P hg rfl he hi (hw i hi).1 hm hd
    obtain ⟨r, a, again, k, -, -, hw'⟩ := blocked_waits h hB (hall e hr)
    exact owner_not_waiting rfl he hw'
  have hlock : ∀ k i d, κ.mem.maxCap - i = k → ¬ (K d).L i := by
    intro k
    induction k using Nat.strongRecOn with
    | ind k ih =>
      intro i d hk hd
      have hr := holder_running h P hd
      obtain ⟨r, a, again, kk, -, -, hw⟩ := blocked_waits h hB (hall d hr)
      cases a with
      | capLoad o => exact hcap d hr o hw
      | stCas j e s ok fail =>
        obtain ⟨h1, h2, -, h3⟩ := hw
        obtain ⟨e, he⟩ := P.held j h1
        have := ho _ _ (h3 i hd)
        have := alloc_bound h h2
        exact ih (κ.mem.maxCap - j) (by omega) j e rfl he
      | _ => exact hw
  obtain ⟨r, a, again, kk, -, -, hw⟩ := blocked_waits h hB (hall c hc)
  cases a with
  | capLoad o => exact hcap c hc o hw
  | stCas j e s ok fail =>
    obtain ⟨e, he⟩ := P.held j hw.1
    exact hlock _ j e rfl he
  | _ => exact hw

/-! ## statuses -/

/-- `q` is what remains of `p` after an action. -/
def Rest (q p : Prog α γ) : Prop := ∃ a again k b, p = .step a again k ∧ q = k b

theorem rest_wf : WellFounded (Rest : Prog α γ → Prog α γ → Prop) := by
  refine ⟨fun p => ?_⟩
  induction p with
  | ret x => exact ⟨_, fun q ⟨a, again, k, b, h, _⟩ => by cases h⟩
  | panic x => exact ⟨_, fun q ⟨a, again, k, b, h, _⟩ => by cases h⟩
  | step a again k ih =>
    refine ⟨_, fun q ⟨a', again', k', b, h, hq⟩ => ?_⟩
    cases h
    subst hq
    exact ih b

/-- Status afterwards: the same, a rest of the program, or the end. -/
inductive Goes : Status α β → Status α β → Prop where
  | same (s) : Goes s s
  | rest {p q} : Rest q p → Goes (.running p) (.running q)
  | done {p x} : Goes (.running p) (.done x)
  | panicked {p k} : Goes (.running p) (.panicked k)

theorem Cfg.Moves.step {c : Cid} (h : κ.Moves c κ') : Step κ κ' := by
  obtain ⟨r, hc, ⟨a, again, k, t, V, m, b, hr, he, rfl⟩ | ⟨x, hr, rfl⟩ | ⟨k, hr, rfl⟩⟩ := h
  · exact .act κ c r a again k t V m b hc hr he
  · exact .ret κ c r x hc hr
  · exact .panic κ c r k hc hr

theorem Step.goes (hs : Step κ κ') (hn : ∀ d, κ.next ≤ d → κ.calls d = none) {c : Cid} {r : Rec α β} (hc : κ.calls c = some r) :
    ∃ r', κ'.calls c = some r' ∧ r'.op = r.op ∧ Goes r.status r'.status := by
  have other : ∀ d q, c ≠ d → ∃ r', upd κ.calls d q c = some r' ∧ r'.op = r.op ∧ Goes r.status r'.status := by
    intro d q hd
    exact ⟨r, by rw [upd_apply, if_neg hd]; exact hc, rfl, .same _⟩
  cases hs with
  | call op H V hH hn' hp =>
    refine other κ.next _ ?_
    intro he; rw [he, hn _ (Nat.le_refl _)] at hc; cases hc
  | act d r' a again k t V m b hd hr he =>
    rcases Decidable.em (c = d) with h | h
    · subst h
      rw [hc] at hd; injection hd with hd; subst hd
      refine ⟨_, upd_same _ _ _, rfl, ?_⟩
      rw [hr]
      show Goes _ (.running (if again b then _ else _))
      split
      · exact .same _
      · exact .rest ⟨a, again, k, b, rfl, rfl⟩
    · exact other d _ h
  | bad d r' a again k t x hd hr he => exact ⟨r, hc, rfl, .same _⟩
  | ret d r' x hd hr =>
    rcases Decidable.em (c = d) with h | h
    · subst h
      rw [hc] at hd; injection hd with hd; subst hd
      refine ⟨_, upd_same _ _ _, rfl, ?_⟩
      rw [hr]; exact .done
    · exact other d _ h
  | panic d r' k hd hr =>
    rcases Decidable.em (c = d) with h | h
    · subst h
      rw [hc] at hd; injection hd with hd; subst hd
      refine ⟨_, upd_same _ _ _, rfl, ?_⟩
      rw [hr]; exact .panicked
    · exact other d _ h
  | reserveMax q hi => exact ⟨r, hc, rfl, .same _⟩

/-- If the status of a call changes, then the call has moved. -/
theorem Step.changed (hs : Step κ κ') (hn : ∀ d, κ.next ≤ d → κ.calls d = none) {c : Cid} {r : Rec α β} (hc : κ.calls c = some r) :
    κ'.at' c = κ.at' c ∨ κ.Moves c κ' := by
  cases hs with
  | call op H V hH hn' hp =>
    refine .inl ?_
    have : c ≠ κ.next := by intro he; rw [he, hn _ (Nat.le_refl _)] at hc; cases hc
    unfold Cfg.at'
    simp only [upd_apply, if_neg this]
  | act d r' a again k t V m b hd hr he =>
    rcases Decidable.em (c = d) with h | h
    · subst h; exact .inr ⟨r', hd, .inl ⟨a, again, k, t, V, m, b, hr, he, rfl⟩⟩
    · refine .inl ?_
      unfold Cfg.at'
      simp only [upd_apply, if_neg h]
  | bad d r' a again k t x hd hr he => exact .inl rfl
  | ret d r' x hd hr =>
    rcases Decidable.em (c = d) with h | h
    · subst h; exact .inr ⟨r', hd, .inr (.inl ⟨x, hr, rfl⟩)⟩
    · refine .inl ?_
      unfold Cfg.at'
      simp only [upd_apply, if_neg h]
  | panic d r' k hd hr =>
    rcases Decidable.em (c = d) with h | h
    · subst h; exact .inr ⟨r', hd, .inr (.inr ⟨k, hr, rfl⟩)⟩
    · refine .inl ?_
      unfold Cfg.at'
      simp only [upd_apply, if_neg h]
  | reserveMax q hi => exact .inl rfl

/-! ## infinite executions -/

section

variable {m : Mem α} {l : List α} {κ : Nat → Cfg α β}

theorem InfExec.reach (h : InfExec m κ) : ∀ t, Reach m (κ t)
  | 0 => by rw [h.init]; exact .init
  | t + 1 => by
    rcases h.next t with hs | hs
    · rw [hs]; exact h.reach t
    · exact .step (h.reach t) hs

theorem InfExec.goes1 (h : InfExec m κ) {t : Nat} {c : Cid} {r : Rec α β} (hc : (κ t).calls c = some r) :
    ∃ r', (κ (t + 1)).calls c = some r' ∧ r'.op = r.op ∧ Goes r.status r'.status := by
  rcases h.next t with hs | hs
  · rw [hs]; exact ⟨r, hc, rfl, .same _⟩
  · exact hs.goes (h.reach t).new hc

theorem InfExec.called (h : InfExec m κ) {t t' : Nat} (ht : t ≤ t') {c : Cid} {op : Op α β} (hc : (κ t).Called c op) :
    (κ t').Called c op := by
  induction ht with
  | refl => exact hc
  | step _ ih =>
    obtain ⟨r, hr, ho⟩ := ih
    obtain ⟨r', h1, h2, -⟩ := h.goes1 hr
    exact ⟨r', h1, h2.trans ho⟩

theorem InfExec.over (h : InfExec m κ) {t t' : Nat} (ht : t ≤ t') {c : Cid} {op : Op α β} (hc : (κ t).Over c op) : (κ t').Over c op := by
  induction ht with
  | refl => exact hc
  | step _ ih =>
    rcases ih with ⟨x, r, hr, ho, hs⟩ | ⟨k, r, hr, ho, hs⟩ <;> obtain ⟨r', h1, h2, h3⟩ := h.goes1 hr <;> rw [hs] at h3
    · cases hs' : r'.status <;> rw [hs'] at h3 <;> cases h3
      exact .inl ⟨x, r', h1, h2.trans ho, hs'⟩
    · cases hs' : r'.status <;> rw [hs'] at h3 <;> cases h3
      exact .inr ⟨k, r', h1, h2.trans ho, hs'⟩

theorem InfExec.panicked (h : InfExec m κ) {t t' : Nat} (ht : t ≤ t') {c : Cid} {op : Op α β} {k : PanicKind} (hc : (κ t).Panicked c op k) :
    (κ t').Panicked c op k := by
  induction ht with
  | refl => exact hc
  | step _ ih =>
    obtain ⟨r, hr, ho, hs⟩ := ih
    obtain ⟨r', h1, h2, h3⟩ := h.goes1 hr
    rw [hs] at h3
    cases hs' : r'.status <;> rw [hs'] at h3 <;> cases h3
    exact ⟨r', h1, h2.trans ho, hs'⟩

/-- A call that never ends is running forever. -/
theorem running_or_over {κ : Cfg α β} {c : Cid} {op : Op α β} (h : κ.Called c op) : κ.Running c op ∨ κ.Over c op := by
  obtain ⟨r, hc, ho⟩ := h
  rcases running_of hc with ⟨p, hp⟩ | ⟨x, hx⟩ | ⟨k, hk⟩
  · exact .inl ⟨r, p, hc, ho, hp⟩
  · exact .inr (.inl ⟨x, r, hc, ho, hx⟩)
  · exact .inr (.inr ⟨k, r, hc, ho, hk⟩)

theorem InfExec.forever (h : InfExec m κ) {c : Cid} (hf : (∀ t, ∃ t', t ≤ t' ∧ (∃ op, (κ t').Running c op) ∧ ¬ (κ t').Blocked c) →
      ∀ t, ∃ t', t ≤ t' ∧ (κ t').Advances c (κ (t' + 1))) {t0 : Nat}
    (hrun : ∀ t, t0 ≤ t → ∃ op, (κ t).Running c op) : ∃ T, t0 ≤ T ∧ ∀ t, T ≤ t → (κ t).Blocked c := by
  have main : ∀ (p : Prog α (Ret α β)) t, t0 ≤ t → (κ t).at' c = some (.running p) → ∃ T, t0 ≤ T ∧ ∀ t, T ≤ t → (κ t).Blocked c := by
    intro p
    induction p using rest_wf.transGen.induction with
    | _ p ih =>
      intro t ht hp
      by_cases hinf : ∀ s, ∃ t', s ≤ t' ∧ (∃ op, (κ t').Running c op) ∧ ¬ (κ t').Blocked c
      · have hone : ∀ s, t0 ≤ s → ∀ q, (κ s).at' c = some (.running q) →
            ∃ q', (κ (s + 1)).at' c = some (.running q') ∧ (q' = q ∨ Rest q' q) := by
          intro s hs q hq
          obtain ⟨op, r, q1, hr, -, hr'⟩ := hrun s hs
          rw [Cfg.at_some hr, hr'] at hq
          injection hq with hq; injection hq with hq; subst hq
          obtain ⟨r', h1, -, h3⟩ := h.goes1 hr
          obtain ⟨op', r2, q', hq', -, hq''⟩ := hrun (s + 1) (by omega)
          rw [h1] at hq'; injection hq' with hq'; subst hq'
          refine ⟨q', by rw [Cfg.at_some h1, hq''], ?_⟩
          rw [hr', hq''] at h3
          cases h3 with
          | same => exact .inl rfl
          | rest h => exact .inr h
        have hev : ∀ n, ∃ q, (κ (t + n)).at' c = some (.running q) ∧ (q = p ∨ Relation.TransGen Rest q p) := by
          intro n
          induction n with
          | zero => exact ⟨p, hp, .inl rfl⟩
          | succ n ihn =>
            obtain ⟨q, h1, h2⟩ := ihn
            obtain ⟨q', h3, h4⟩ := hone (t + n) (by omega) q h1
            refine ⟨q', h3, ?_⟩
            rcases h4 with rfl | h4
            · exact h2
            · rcases h2 with rfl | h2
              · exact .inr (.single h4)
              · exact .inr (Relation.TransGen.trans (.single h4) h2)
        obtain ⟨t', ht', hm, hne⟩ := hf hinf t
        obtain ⟨n, rfl⟩ := Nat.exists_eq_add_of_le ht'
        obtain ⟨q, h1, h2⟩ := hev n
        obtain ⟨q', h3, h4⟩ := hone (t + n) (by omega) q h1
        have hsub : Rest q' q := by
          rcases h4 with rfl | h4
          · exact absurd (h3.trans h1.symm) hne
          · exact h4
        refine ih q' ?_ (t + n + 1) (by omega) h3
        rcases h2 with rfl | h2
        · exact .single hsub
        · exact Relation.TransGen.trans (.single hsub) h2
      · simp only [not_forall, not_exists, not_and, not_not] at hinf
        obtain ⟨s, hs⟩ := hinf
        refine ⟨max s t0, Nat.le_max_right _ _, fun t' ht' => ?_⟩
        exact hs t' (by omega) (hrun t' (by omega))
  obtain ⟨op, r, p, hr, -, hp⟩ := hrun t0 (Nat.le_refl _)
  exact main p t0 (Nat.le_refl _) (by rw [Cfg.at_some hr, hp])

/-- What the calls own and know, at every moment. -/
theorem InfExec.ghost (hm : InitMem m l) (h : InfExec m κ) (ho : ∀ t c op, (κ t).Called c op → Allowed D op)
    (hx : ∀ t, (κ t).Exceeds mx) : ∃ K K0 : Nat → Cid → Know, K 0 = upd (fun _ => .empty) 0 (.start l.length) ∧
      ∀ t, WInv D mx l.length (κ t) (K t) (K0 t) ∧ PInv l.length (κ t) (K t) ∧ Later (κ t) (κ (t + 1)) (K t) (K (t + 1)) := by
  let P : Nat → (Cid → Know) × (Cid → Know) → Prop := fun t x => WInv D mx l.length (κ t) x.1 x.2 ∧ PInv l.length (κ t) x.1
  have hstep : ∀ t (x : {x // P t x}), ∃ y : {y // P (t + 1) y}, Later (κ t) (κ (t + 1)) x.1.1 y.1.1 := by
    intro t ⟨⟨K, K0⟩, hW, hP⟩
    rcases h.next t with hs | hs
    · refine ⟨⟨(K, K0), ?_⟩, ?_⟩
      · show WInv _ _ _ (κ (t + 1)) K K0 ∧ _
        rw [hs]; exact ⟨hW, hP⟩
      · show Later (κ t) (κ (t + 1)) K K
        rw [hs]; exact .refl _ _
    · obtain ⟨K', K0', h1, h2, h3⟩ := PInv.step hW hP hs (ho (t + 1)) (hx (t + 1))
      exact ⟨⟨(K', K0'), h1, h2⟩, h3⟩
  have h0 : P 0 (upd (fun _ => .empty) 0 (.start l.length), fun _ => .empty) := by
    show WInv _ _ _ (κ 0) _ _ ∧ _
    rw [h.init]; exact ⟨winv_init hm, pinv_init hm⟩
  let f : (t : Nat) → {x // P t x} := fun t => Nat.rec ⟨_, h0⟩ (fun t x => (hstep t x).choose) t
  exact ⟨fun t => (f t).1.1, fun t => (f t).1.2, rfl, fun t => ⟨(f t).2.1, (f t).2.2, (hstep t (f t)).choose_spec⟩⟩

variable {K K0 : Nat → Cid → Know}

theorem ghost_r (hl : ∀ t, Later (κ t) (κ (t + 1)) (K t) (K (t + 1))) {t t' : Nat} (ht : t ≤ t') {d : Cid} {i : Nat}
    (hi : (K t d).R i) : (K t' d).R i := by
  induction ht with
  | refl => exact hi
  | step _ ih => exact (hl _).r d i ih

theorem ghost_l (hl : ∀ t, Later (κ t) (κ (t + 1)) (K t) (K (t + 1))) {t t' : Nat} (ht : t ≤ t') {d : Cid} {i : Nat}
    (hi : (K t d).L i) (hlock : ∀ s, t ≤ s → Locked (κ s).mem i) : (K t' d).L i := by
  induction ht with
  | refl => exact hi
  | @step s hs ih => exact (hl _).l d i ih (hlock _ (Nat.le_succ_of_le hs))

theorem ghost_cap (hl : ∀ t, Later (κ t) (κ (t + 1)) (K t) (K (t + 1))) {t t' : Nat} (ht : t ≤ t') :
    lastVal (κ t).mem.cap ≤ lastVal (κ t').mem.cap := by
  induction ht with
  | refl => exact Nat.le_refl _
  | step _ ih => exact Nat.le_trans ih (hl _).cap

/-- A bounded quantity that never decreases is constant in the end. -/
theorem eventually_const {f : Nat → Nat} (hf : ∀ s t, s ≤ t → f s ≤ f t) {B : Nat} : ∀ k t, B - f t = k → (∀ s, t ≤ s → f s ≤ B) →
    ∃ T, t ≤ T ∧ ∀ s, T ≤ s → f s = f T := by
  intro k
  induction k using Nat.strongRecOn with
  | ind k ih =>
    intro t hk hB
    by_cases hc : ∀ s, t ≤ s → f s = f t
    · exact ⟨t, Nat.le_refl _, hc⟩
    · simp only [not_forall] at hc
      obtain ⟨s, hs, hne⟩ := hc
      have h1 := hf t s hs
      have h2 := hB s hs
      obtain ⟨T, hT, hT'⟩ := ih (B - f s) (by omega) s rfl (fun u hu => hB u (by omega))
      exact ⟨T, by omega, hT'⟩

/-- The action for which a blocked call waits does not change. -/
theorem InfExec.wait (h : InfExec m κ) (hW : ∀ t, WInv D mx n (κ t) (K t) (K0 t)) {c : Cid} {T : Nat} (hb : ∀ t, T ≤ t → (κ t).Blocked c) :
    ∃ a again k, ∀ t, T ≤ t → (∃ r, (κ t).calls c = some r ∧ r.status = .running (.step a again k)) ∧ Waits D (κ t).mem (K t c) a := by
  have h1 : ∀ t, T ≤ t → ∃ r a again k, (κ t).calls c = some r ∧ r.status = .running (.step a again k) ∧ Waits D (κ t).mem (K t c) a :=
    fun t ht => blocked_waits (hW t) (binv (h.reach t)) (hb t ht)
  obtain ⟨r, a, again, k, hr, hs, -⟩ := h1 T (Nat.le_refl _)
  have hsame : ∀ t, T ≤ t → (κ t).at' c = some (.running (.step a again k)) := by
    intro t ht
    induction ht with
    | refl => rw [Cfg.at_some hr, hs]
    | @step t ht ih =>
      obtain ⟨op, q, p, hq, -, hp⟩ := (hb t ht).1
      rcases h.next t with he | he
      · rw [he]; exact ih
      · refine Classical.byContradiction fun hne => ?_
        refine (hb t ht).2 (κ (t + 1)) ⟨?_, fun heq => hne (heq.trans ih)⟩
        exact (he.changed (h.reach t).new hq).resolve_left fun heq => hne (heq.trans ih)
  refine ⟨a, again, k, fun t ht => ?_⟩
  obtain ⟨q, a', again', k', hq, hq', hw⟩ := h1 t ht
  have := hsame t ht
  rw [Cfg.at_some hq, hq'] at this
  injection this with this; injection this with this
  cases this
  exact ⟨⟨q, hq, hq'⟩, hw⟩

theorem InfExec.ends (hm : InitMem m l) (h : InfExec m κ) (hf : StronglyFair κ) (hord : D.ordered)
    (ho : ∀ t c op, (κ t).Called c op → Allowed D op) (hg : ∀ t, (κ t).GrowthIntact mx) {c : Cid} {t : Nat}
    (hrun : ∀ s, t ≤ s → ∃ op, (κ s).Running c op) : False := by
  obtain ⟨K, K0, -, hgh⟩ := h.ghost hm ho fun t c op hp => Nat.le_of_eq ((hg t).2 c op hp).symm
  have hW := fun t => (hgh t).1
  have hP := fun t => (hgh t).2.1
  have hl := fun t => (hgh t).2.2
  -- the maximum capacity stays the same
  have hmax : ∀ s, t ≤ s → (κ s).mem.maxCap = (κ t).mem.maxCap := by
    intro s hs
    induction hs with
    | refl => rfl
    | @step s hs ih =>
      rw [← ih]
      rcases h.next s with he | he
      · rw [he]
      · obtain ⟨op, ho⟩ := hrun s hs
        exact ((hW s).maxCap_le he).2 fun hi => hi c op ho
  -- nobody waits for storage forever
  have hcap : ∀ c T (o : MOrd), (∀ s, T ≤ s → ∃ op, (κ s).Running c op) →
      (∀ s, T ≤ s → Waits D (κ s).mem (K s c) (.capLoad o : Act α)) → False := by
    intro c T o hr hw
    obtain ⟨⟨i, hi⟩, -⟩ := hw T (Nat.le_refl _)
    have hi' : ∀ s, T ≤ s → (K s c).R i ∧ lastVal (κ s).mem.cap < i ∧ i < (κ s).mem.maxCap := by
      intro s hs
      have h1 := ghost_r hl hs hi
      exact ⟨h1, (hw s hs).2 i h1⟩
    obtain ⟨T', hT', hc⟩ := eventually_const (f := fun s => lastVal (κ s).mem.cap) (fun s t => ghost_cap hl) (B := i) _ T rfl
      (fun s hs => Nat.le_of_lt (hi' s hs).2.1)
    obtain ⟨d, hd⟩ := next_owner (hW T') (hP T') (hi' T' hT').1 (hi' T' hT').2.1
    have hd' : ∀ s, T' ≤ s → (K s d).R (lastVal (κ s).mem.cap) := by
      intro s hs
      have : lastVal (κ s).mem.cap = _ := hc s hs
      rw [this]
      exact ghost_r hl hs hd
    have hdr : ∀ s, T' ≤ s → ∃ op, (κ s).Running d op := by
      intro s hs
      have := hi' s (by omega)
      exact owner_running (hW s) (hP s) (hg s) rfl (hd' s hs) this.1 this.2.1 this.2.2 (hr s (by omega))
    obtain ⟨T2, hT2, hb⟩ := h.forever (hf _) hdr
    obtain ⟨r, a, again, k, -, -, hw'⟩ := blocked_waits (hW T2) (binv (h.reach T2)) (hb T2 (Nat.le_refl _))
    exact owner_not_waiting rfl (hd' T2 hT2) hw'
  -- nobody waits for an element forever
  have hlock : ∀ k i c T, t ≤ T → (κ t).mem.maxCap - i = k → (∀ s, T ≤ s → Locked (κ s).mem i) → (∀ s, T ≤ s → (K s c).L i) → False := by
    intro k
    induction k using Nat.strongRecOn with
    | ind k ih =>
      intro i c T hT hk hlk hL
      have hr : ∀ s, T ≤ s → ∃ op, (κ s).Running c op := fun s hs => holder_running (hW s) (hP s) (hL s hs)
      obtain ⟨T2, hT2, hb⟩ := h.forever (hf _) hr
      obtain ⟨a, _, _, hw⟩ := h.wait hW hb
      have hw := fun s hs => (hw s hs).2
      cases a with
      | capLoad o => exact hcap c T2 o (fun s hs => hr s (by omega)) hw
      | stCas j e s ok fail =>
        obtain ⟨h1, h2, -, h3⟩ := hw T2 (Nat.le_refl _)
        have hij := hord _ _ (h3 i (hL T2 hT2))
        have hjm := alloc_bound (hW T2) h2
        rw [hmax T2 (by omega)] at hjm
        obtain ⟨d, hd⟩ := (hP T2).held j h1
        have hlk' : ∀ s, T2 ≤ s → Locked (κ s).mem j := fun s hs => (hw s hs).1
        exact ih ((κ t).mem.maxCap - j) (by omega) j d T2 (by omega) rfl hlk' (fun s hs => ghost_l hl hs hd hlk')
      | _ => exact hw T2 (Nat.le_refl _)
  obtain ⟨T, hT, hb⟩ := h.forever (hf _) hrun
  obtain ⟨a, _, _, hw⟩ := h.wait hW hb
  have hw := fun s hs => (hw s hs).2
  cases a with
  | capLoad o => exact hcap c T o (fun s hs => hrun s (by omega)) hw
  | stCas j e s ok fail =>
    obtain ⟨d, hd⟩ := (hP T).held j (hw T (Nat.le_refl _)).1
    have hlk : ∀ s, T ≤ s → Locked (κ s).mem j := fun s hs => (hw s hs).1
    exact hlock _ j d T hT rfl hlk (fun s hs => ghost_l hl hs hd hlk)
  | _ => exact hw T (Nat.le_refl _)

end

/-! ## completion -/

theorem Cfg.Runs.reach {m : Mem α} (h : Reach m κ) (hr : κ.Runs κ') : Reach m κ' := by
  induction hr with
  | refl => exact h
  | step _ hm ih => exact .step ih hm.step

theorem Cfg.Runs.trans {κ'' : Cfg α β} (h : κ.Runs κ') (h' : κ'.Runs κ'') : κ.Runs κ'' := by
  induction h' with
  | refl => exact h
  | step _ hm ih => exact .step ih hm

/-- The calls are the same ones. -/
theorem Cfg.Moves.same {c : Cid} (h : κ.Moves c κ') : κ'.next = κ.next ∧ ∀ d op, κ'.Called d op ↔ κ.Called d op := by
  have key : ∀ (r q : Rec α β) (d : Cid) op, κ.calls c = some r → q.op = r.op →
      ((∃ r', upd κ.calls c (some q) d = some r' ∧ r'.op = op) ↔ κ.Called d op) := by
    intro r q d op hc hq
    unfold Cfg.Called
    rw [upd_apply]
    split
    · next he =>
      subst he
      rw [hc]
      simp only [Option.some.injEq, exists_eq_left', hq]
    · rfl
  obtain ⟨r, hc, ⟨a, again, k, t, V, m, b, hr, he, rfl⟩ | ⟨x, hr, rfl⟩ | ⟨k, hr, rfl⟩⟩ := h
  · exact ⟨rfl, fun d op => key r _ d op hc rfl⟩
  · exact ⟨rfl, fun d op => key r _ d op hc rfl⟩
  · exact ⟨rfl, fun d op => key r _ d op hc rfl⟩

/-- One of the first `n` components gets smaller. -/
def OneLess {X : Type} (r : X → X → Prop) (n : Nat) (f g : Nat → X) : Prop :=
  ∃ c, c < n ∧ r (f c) (g c) ∧ ∀ d, d ≠ c → f d = g d

theorem oneLess_wf {X : Type} (x : X) {r : X → X → Prop} (hr : WellFounded r) : ∀ n, WellFounded (OneLess r n)
  | 0 => ⟨fun f => ⟨f, fun g ⟨c, hc, _⟩ => absurd hc (Nat.not_lt_zero c)⟩⟩
  | n + 1 => by
    have ih := oneLess_wf x hr n
    refine Subrelation.wf ?_ (InvImage.wf (fun f : Nat → X => ((fun d => if d < n then f d else x : Nat → X), f n)) (ih.prod_gameAdd hr))
    intro f g ⟨c, hc, h1, h2⟩
    rcases Nat.lt_or_ge c n with h | h
    · have hn : f n = g n := h2 n (by omega)
      show Prod.GameAdd _ _ (_, f n) (_, g n)
      rw [hn]
      refine .fst ⟨c, h, ?_, fun d hd => ?_⟩
      · simp only [if_pos h]; exact h1
      · simp only [h2 d hd]
    · have hcn : c = n := by omega
      subst hcn
      have : (fun d => if d < c then f d else x) = fun d => if d < c then g d else x := by
        funext d
        split
        · exact h2 d (by omega)
        · rfl
      show Prod.GameAdd _ _ (_, f c) (_, g c)
      rw [this]
      exact .snd h1

/-- A status gets nearer to the end. -/
def Nearer : Option (Status α β) → Option (Status α β) → Prop
  | some s', some s => Goes s s' ∧ s' ≠ s
  | _, _ => False

theorem nearer_wf : WellFounded (Nearer : Option (Status α β) → Option (Status α β) → Prop) := by
  have hover : ∀ s : Option (Status α β), (∀ p, s ≠ some (.running p)) → Acc Nearer s := by
    intro s hs
    refine ⟨_, fun s' h => ?_⟩
    rcases s' with _ | s' <;> rcases s with _ | s
    · exact h.elim
    · exact h.elim
    · exact h.elim
    · obtain ⟨h1, h2⟩ := h
      cases h1 with
      | same => exact absurd rfl h2
      | rest _ => exact absurd rfl (hs _)
      | done => exact absurd rfl (hs _)
      | panicked => exact absurd rfl (hs _)
  have hrun : ∀ p, Acc Nearer (some (.running p : Status α β)) := by
    intro p
    induction p using rest_wf.induction with
    | _ p ih =>
      refine ⟨_, fun s' h => ?_⟩
      rcases s' with _ | s'
      · exact h.elim
      · obtain ⟨h1, h2⟩ := h
        cases h1 with
        | same => exact absurd rfl h2
        | rest hq => exact ih _ hq
        | done => exact hover _ fun p hp => by cases hp
        | panicked => exact hover _ fun p hp => by cases hp
  refine ⟨fun s => ?_⟩
  by_cases h : ∃ p, s = some (.running p)
  · obtain ⟨p, rfl⟩ := h; exact hrun p
  · exact hover s fun p hp => h ⟨p, hp⟩

/-- Only the call that moves gets further. -/
theorem Cfg.Moves.others {c d : Cid} (h : κ.Moves c κ') (hd : d ≠ c) : κ'.at' d = κ.at' d := by
  obtain ⟨r, hc, ⟨a, again, k, t, V, m, b, hr, he, rfl⟩ | ⟨x, hr, rfl⟩ | ⟨k, hr, rfl⟩⟩ := h <;>
    (unfold Cfg.at'; simp only [upd_apply, if_neg hd])

/-- Restrictions that hold in an execution whose blocking swaps are called with the smaller index first. -/
def orderedMode (κ : Cfg α β) : Mode := ⟨fun e => ∃ c, κ.Called c (.deref e), False, fun i j => i < j⟩

theorem SwapsUp.lt {op : Op α β} (h : op.SwapsUp) {i j : Nat} (hs : op.SwapsWith i j) : i < j := by
  unfold Op.SwapsWith at hs
  split at hs
  · obtain ⟨rfl, rfl⟩ := hs; exact h
  · obtain ⟨rfl, rfl⟩ := hs; exact Nat.add_lt_add_left h _
  · exact hs.elim

theorem allowed_ordered (hd : κ.Disciplined) (hs : κ.SwapsUp) {c : Cid} {op : Op α β} (hc : κ.Called c op) :
    Allowed (orderedMode κ) op :=
  ⟨fun i ⟨c', hc'⟩ => hd c' i hc' c op hc, fun _ he => ⟨c, he ▸ hc⟩, fun h => h.elim, fun _ _ => SwapsUp.lt (hs c op hc)⟩

theorem intact_of_safe (h : WInv D mx n κ K K0) (hs : κ.SafeClosures) : κ.GrowthIntact κ.mem.maxCap := by
  refine ⟨fun c f hp => ?_, fun _ _ _ => rfl⟩
  obtain ⟨i, hi⟩ := (h.failed hp).may
  obtain ⟨r, hr, ho, -⟩ := hp
  have := hs c _ ⟨r, hr, ho⟩ f rfl i
  rw [hi] at this; cases this

theorem WInv.other {mx' : Nat} (h : WInv D mx n κ K K0) (hx : ∀ c op, κ.Panicked c op .maxCapacity → mx' ≤ mx) : WInv D mx' n κ K K0 :=
  { h with
    fits := fun c r hc => by
      have hf := h.fits c r hc
      unfold Fits at hf ⊢
      split
      · next hp => rw [hp] at hf; exact hf
      · next hp => rw [hp] at hf; exact hf
      · next hp => rw [hp] at hf; exact hf.lower fun hk => hx c r.op ⟨r, hc, rfl, by rw [hp, hk]⟩ }

theorem completes {m : Mem α} {l : List α} (hm : InitMem m l) {κ : Cfg α β} (hR : Reach m κ) (hd : κ.Disciplined) (hs : κ.SwapsUp)
    (hsc : κ.SafeClosures) (hx : ∀ c op, κ.Panicked c op .maxCapacity → κ.mem.maxCap = m.maxCap) : ∃ κ', κ.Runs κ' ∧ κ'.Idle := by
  have main : ∀ (nx : Nat) (f : Nat → Option (Status α β)) (κ : Cfg α β) (K K0 : Cid → Know), κ.next = nx → κ.at' = f → Reach m κ →
      κ.Disciplined → κ.SwapsUp → κ.SafeClosures → WInv (orderedMode κ) κ.mem.maxCap l.length κ K K0 → PInv l.length κ K →
      ∃ κ', κ.Runs κ' ∧ κ'.Idle := by
    intro nx f
    induction f using (oneLess_wf none nearer_wf nx).induction with
    | _ f ih =>
      intro κ K K0 hnx hf hR hd hs hsc hW hP
      by_cases hidle : κ.Idle
      · exact ⟨κ, .refl, hidle⟩
      · have hrun : ∃ c, ∃ op, κ.Running c op := by
          refine Classical.byContradiction fun hno => hidle fun c op hc => hno ⟨c, op, hc⟩
        obtain ⟨c, hc⟩ := hrun
        obtain ⟨d, hdr, hnb⟩ := not_stuck hW hP (binv hR) (fun _ _ h => h) (intact_of_safe hW hsc) hc
        have hadv : ∃ κ', κ.Advances d κ' := Classical.byContradiction fun hno => hnb ⟨hdr, fun κ' h => hno ⟨κ', h⟩⟩
        obtain ⟨κ', hmv, hne⟩ := hadv
        obtain ⟨hn', hcl⟩ := hmv.same
        obtain ⟨op, r, p, hr, -, hrp⟩ := hdr
        obtain ⟨r', hr', -, hgo⟩ := hmv.step.goes hR.new hr
        have hless : OneLess Nearer nx κ'.at' f := by
          refine ⟨d, ?_, ?_, fun e he => by rw [hmv.others he, hf]⟩
          · refine Nat.lt_of_not_le fun hle => ?_
            rw [← hnx] at hle
            rw [hR.new d hle] at hr; cases hr
          · rw [← hf, Cfg.at_some hr, Cfg.at_some hr']
            rw [Cfg.at_some hr, Cfg.at_some hr'] at hne
            exact ⟨hgo, fun h => hne (by rw [h])⟩
        have hd' : κ'.Disciplined := fun c e hc c' op hc' => hd c e ((hcl _ _).1 hc) c' op ((hcl _ _).1 hc')
        have hs' : κ'.SwapsUp := fun c op hc => hs c op ((hcl _ _).1 hc)
        have hmax : κ'.mem.maxCap = κ.mem.maxCap := (hW.maxCap_le hmv.step).2 hidle
        have hmode : orderedMode κ' = orderedMode κ := by
          unfold orderedMode
          congr
          funext e
          exact propext ⟨fun ⟨c, hc⟩ => ⟨c, (hcl _ _).1 hc⟩, fun ⟨c, hc⟩ => ⟨c, (hcl _ _).2 hc⟩⟩
        obtain ⟨K', K0', h1, h2, -⟩ := hP.step hW hmv.step (fun c op hc => hmode ▸ allowed_ordered hd' hs' hc)
          fun _ _ _ => Nat.le_of_eq hmax.symm
        obtain ⟨κ'', h3, h4⟩ := ih _ hless κ' K' K0' (hn'.trans hnx) rfl (.step hR hmv.step) hd' hs'
          (fun c op hc => hsc c op ((hcl _ _).1 hc)) (by rw [hmode, hmax]; exact h1) h2
        exact ⟨κ'', (Cfg.Runs.step .refl hmv).trans h3, h4⟩
  obtain ⟨K, K0, hW, hP⟩ := pinv (D := orderedMode κ) hm hR fun c op hc => allowed_ordered hd hs hc
  exact main _ _ κ K K0 rfl rfl hR hd hs hsc (hW.other fun c op hc => Nat.le_of_eq (hx c op hc)) hP

end Verif.Weak
