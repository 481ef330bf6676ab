import Verif.Weak.Sound

/-!
# A scheduler for weak-memory executions

Executes a given execution.  Used to exhibit concrete executions (examples beside the theorems, counterexamples); no
theorem about all executions depends on it.
-/

namespace Verif.Weak

variable {α β : Type}

/-- A decision (not in the source: scheduling). -/
inductive Choice (α β : Type) where
  /-- `op` is called; the calls in `H` happen before -/
  | call (op : Op α β) (H : List Cid)
  /-- the running call `c` makes its next step, with the newest message -/
  | go (c : Cid)
  /-- the running call `c` makes its next step, with message `t` -/
  | at (c : Cid) (t : Nat)
  /-- the maximum capacity is raised -/
  | raise (n : Nat)

/-- Number of the newest message of the location an action refers to (not in the source). -/
def newest (m : WMem α) : Act α → Nat
  | .resFetchAdd _ _ | .resLoad _ => m.res.length - 1
  | .writtenLoad _ | .writtenFetchMax _ _ => m.written.length - 1
  | .capLoad _ | .growPublish _ => m.cap.length - 1
  | .stLoad i _ | .stCas i _ _ _ _ | .stStore i _ _ => (m.st i).length - 1
  | _ => 0

namespace Cfg

/-- Join of the views of ended calls (not in the source). -/
def join (κ : Cfg α β) : List Cid → Option View
  | [] => some .bot
  | c :: H =>
    match κ.calls c with
    | some ⟨_, _, _, V, .done _⟩ => (κ.join H).map V.join
    | some ⟨_, _, _, V, .panicked _⟩ => (κ.join H).map V.join
    | _ => none

/-- Decidable form of `Revealed`. -/
def revealedB (κ : Cfg α β) (H : List Cid) (i : Nat) : Bool :=
  H.any fun c => match κ.calls c with
    | some ⟨_, _, _, _, .done x⟩ => x.elements.contains i
    | _ => false

/-- Decidable form of `RevealedPtr`. -/
def revealedPtrB (κ : Cfg α β) (H : List Cid) (i : Nat) : Bool :=
  H.any fun c => match κ.calls c with
    | some ⟨_, _, _, _, .done x⟩ => x.pointers.contains i
    | _ => false

/-- The next step of call `c`, with message `t` or the newest one (not in the source). -/
def go (κ : Cfg α β) (c : Cid) (t : Option Nat) : Option (Cfg α β) :=
  match κ.calls c with
  | none => none
  | some r =>
    match r.status with
    | .done _ => none
    | .panicked _ => none
    | .running (.ret x) => some { κ with calls := upd κ.calls c (some { r with status := .done x }) }
    | .running (.panic k) => some { κ with calls := upd κ.calls c (some { r with status := .panicked k }) }
    | .running (.step a again k) =>
      match exec a (t.getD (newest κ.mem a)) r.view κ.mem with
      | .no => none
      | .bad x => some { κ with bad := some x }
      | .ok V m b => some { κ with
          mem := m
          calls := upd κ.calls c (some { r with
            view := V
            status := .running (if again b then .step a again k else k b) }) }

/-- Decidable form of `Idle`. -/
def idleB (κ : Cfg α β) : Bool :=
  (List.range κ.next).all fun c => match κ.calls c with
    | some ⟨_, _, _, _, .running _⟩ => false
    | _ => true

/-- Perform one decision, if it is possible (not in the source). -/
def perform (κ : Cfg α β) : Choice α β → Option (Cfg α β)
  | .call op H =>
    match κ.join H with
    | none => none
    | some V =>
      if (op.needs.all (κ.revealedB H) && op.needsPtr.all (κ.revealedPtrB H)) = true then
        some { κ with
          calls := upd κ.calls κ.next (some ⟨op, H, V, V, .running op.prog⟩)
          next := κ.next + 1 }
      else none
  | .go c => κ.go c none
  | .at c t => κ.go c (some t)
  | .raise n => if κ.idleB then some { κ with mem := κ.mem.reserveMax n } else none

/-- Perform a list of decisions (not in the source). -/
def run (κ : Cfg α β) : List (Choice α β) → Option (Cfg α β)
  | [] => some κ
  | ch :: chs =>
    match κ.perform ch with
    | none => none
    | some κ' => κ'.run chs

/-- Result of a call that returned (not in the source). -/
def result (κ : Cfg α β) (c : Cid) : Option (Ret α β) :=
  match κ.calls c with
  | some ⟨_, _, _, _, .done x⟩ => some x
  | _ => none

/-- Panic of a call that panicked (not in the source). -/
def panicOf (κ : Cfg α β) (c : Cid) : Option PanicKind :=
  match κ.calls c with
  | some ⟨_, _, _, _, .panicked k⟩ => some k
  | _ => none

variable {κ κ' : Cfg α β}

theorem ended_of {H : List Cid} {V : View} (h : κ.join H = some V) : Ended κ H V := by
  induction H generalizing V with
  | nil => cases h; exact .nil
  | cons c H ih =>
    unfold join at h
    split at h
    · next hc =>
      rw [Option.map_eq_some_iff] at h
      obtain ⟨W, hW, rfl⟩ := h
      exact .done hc rfl (ih hW)
    · next hc =>
      rw [Option.map_eq_some_iff] at h
      obtain ⟨W, hW, rfl⟩ := h
      exact .panicked hc rfl (ih hW)
    · cases h

theorem revealed_of {H : List Cid} {i : Nat} (h : κ.revealedB H i = true) : κ.Revealed H i := by
  simp only [revealedB, List.any_eq_true] at h
  obtain ⟨c, hc, h⟩ := h
  split at h
  · exact ⟨c, hc, _, _, by assumption, rfl, by simpa using h⟩
  · cases h

theorem revealedPtr_of {H : List Cid} {i : Nat} (h : κ.revealedPtrB H i = true) : κ.RevealedPtr H i := by
  simp only [revealedPtrB, List.any_eq_true] at h
  obtain ⟨c, hc, h⟩ := h
  split at h
  · exact ⟨c, hc, _, _, by assumption, rfl, by simpa using h⟩
  · cases h

theorem go_step {c : Cid} {t : Option Nat} (h : κ.go c t = some κ') : Step κ κ' := by
  unfold go at h
  split at h
  · cases h
  · next r hc =>
    split at h
    · cases h
    · cases h
    · next x hr => injection h with h; subst h; exact .ret κ c r x hc hr
    · next k hr => injection h with h; subst h; exact .panic κ c r k hc hr
    · next a again k hr =>
      split at h
      · cases h
      · next x he => injection h with h; subst h; exact .bad κ c r a again k _ x hc hr he
      · next V m b he => injection h with h; subst h; exact .act κ c r a again k _ V m b hc hr he

theorem idleB_idle (hn : ∀ d, κ.next ≤ d → κ.calls d = none) (h : κ.idleB = true) : κ.Idle := by
  rintro c op ⟨⟨o, hb, st, v, s⟩, p, hr, -, hp⟩
  have hlt : c < κ.next := by
    rcases Nat.lt_or_ge c κ.next with hlt | hge
    · exact hlt
    · rw [hn c hge] at hr; cases hr
  have := List.all_eq_true.1 h c (List.mem_range.2 hlt)
  simp only at hp
  subst hp
  rw [hr] at this
  simp at this

theorem perform_step {ch : Choice α β} (hnew : ∀ d, κ.next ≤ d → κ.calls d = none) (h : κ.perform ch = some κ') : Step κ κ' := by
  cases ch with
  | call op H =>
    simp only [perform] at h
    split at h
    · cases h
    · next V hV =>
      split at h
      · next hn =>
        simp only [Bool.and_eq_true, List.all_eq_true] at hn
        injection h with h
        subst h
        exact .call κ op H V (ended_of hV) (fun i hi => revealed_of (hn.1 i hi)) (fun i hi => revealedPtr_of (hn.2 i hi))
      · cases h
  | go c => exact go_step h
  | «at» c t => exact go_step h
  | raise n =>
    simp only [perform] at h
    split at h
    · next hi => injection h with h; subst h; exact .reserveMax κ n (idleB_idle hnew hi)
    · cases h

theorem reach_of_run {m : Mem α} {chs : List (Choice α β)} (h : Reach m κ) (hr : κ.run chs = some κ') : Reach m κ' := by
  induction chs generalizing κ with
  | nil => cases hr; exact h
  | cons ch chs ih =>
    simp only [run] at hr
    split at hr
    · cases hr
    · next κ1 h1 => exact ih (h.step (perform_step h.new h1)) hr

theorem returned_of {c : Cid} {op : Op α β} {x : Ret α β}
    (h1 : (κ.calls c).map Rec.op = some op) (h2 : κ.result c = some x) : κ.Returned c op x := by
  unfold result at h2
  split at h2
  · next heq =>
    rw [heq] at h1
    simp only [Option.map_some, Option.some.injEq] at h1 h2
    subst h1 h2
    exact ⟨_, heq, rfl, rfl⟩
  · cases h2

theorem panicked_of {c : Cid} {op : Op α β} {k : PanicKind}
    (h1 : (κ.calls c).map Rec.op = some op) (h2 : κ.panicOf c = some k) : κ.Panicked c op k := by
  unfold panicOf at h2
  split at h2
  · next heq =>
    rw [heq] at h1
    simp only [Option.map_some, Option.some.injEq] at h1 h2
    subst h1 h2
    exact ⟨_, heq, rfl, rfl⟩
  · cases h2

theorem hb_of {c d : Cid} {H : List Cid} (h : (κ.calls d).map Rec.hb = some H) (hc : c ∈ H) : κ.HB c d := by
  rw [Option.map_eq_some_iff] at h
  obtain ⟨r, hr, rfl⟩ := h
  exact .one hr hc

end Cfg

end Verif.Weak
