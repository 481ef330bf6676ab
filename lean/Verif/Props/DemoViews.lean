import Verif.Props.Demo
import Verif.Proof.Views

/-!
# Concrete executions: which calls overlap

Shared by the examples beside the property theorems.
-/

namespace Verif.Demo

/-- Does `c` end before `d` is invoked? -/
def beforeB (κ : Cfg Nat Nat) (c d : Cid) : Bool :=
  match endOf κ c, callOf κ d with
  | some t, some u => decide (t < u)
  | _, _ => false

theorem beforeB_of {κ : Cfg Nat Nat} {c d : Cid} (h : beforeB κ c d = true) : κ.Before c d := by
  unfold beforeB at h
  split at h
  · rename_i h1 h2
    exact before_of h1 h2 (by simpa using h)
  · cases h

/-- The operations of the calls overlapping with `c`. -/
def others (κ : Cfg Nat Nat) (c : Cid) : List (Op Nat Nat) :=
  (List.range κ.next).filterMap fun d =>
    if d == c || beforeB κ c d || beforeB κ d c then none else (κ.calls d).map Rec.op

theorem mem_others {l : List Nat} {cap maxCap : Nat} {κ : Cfg Nat Nat} (hl : l.length ≤ cap) (hc : cap ≤ maxCap)
    (h : Reach (mem l cap maxCap) l κ) {c d : Cid} {op : Op Nat Nat} (hne : d ≠ c) (ho : κ.Overlap c d)
    (hd : κ.Called d op) : op ∈ others κ c := by
  obtain ⟨ct, st, s, hr⟩ := hd
  have h1 : beforeB κ c d = false := by
    rcases hb : beforeB κ c d with _ | _
    · rfl
    · exact absurd (beforeB_of hb) ho.2.2.1
  have h2 : beforeB κ d c = false := by
    rcases hb : beforeB κ d c with _ | _
    · rfl
    · exact absurd (beforeB_of hb) ho.2.2.2
  unfold others
  rw [List.mem_filterMap]
  exact ⟨d, known hl hc h hr, by simp [hne, h1, h2, hr]⟩

theorem alone_of {l : List Nat} {cap maxCap : Nat} {κ : Cfg Nat Nat} (hl : l.length ≤ cap) (hc : cap ≤ maxCap)
    (h : Reach (mem l cap maxCap) l κ) {c : Cid} (ho : others κ c = []) : κ.Alone c := by
  intro d hd hov
  obtain ⟨⟨op, ct, st, s⟩, hr⟩ := hov.2.1
  have := mem_others hl hc h hd hov ⟨ct, st, s, hr⟩
  rw [ho] at this; simp at this

/-- No call overlaps with `c`. -/
theorem holding_alone {l : List Nat} {cap maxCap : Nat} {κ : Cfg Nat Nat} (hl : l.length ≤ cap) (hc : cap ≤ maxCap)
    (h : Reach (mem l cap maxCap) l κ) {c : Cid} {m : Mem Nat} {vs : List Nat} (hs : κ.AtStart c m) (hv : m.Leading vs)
    (ho : others κ c = []) : κ.Holding c vs := by
  have key : ∀ d op, d ≠ c → κ.Overlap c d → κ.Called d op → False := by
    intro d op h1 h2 h3
    have := mem_others hl hc h h1 h2 h3
    rw [ho] at this; simp at this
  exact ⟨⟨⟨m, hs, hv⟩, fun d op h1 h2 h3 => (key d op h1 h2 h3).elim⟩,
    .inl fun d op h1 h2 h3 => (key d op h1 h2 h3).elim⟩

theorem leading_of {m : Mem Nat} {vs : List Nat} (h1 : (List.range vs.length).map m.content = vs.map some)
    (h2 : m.content vs.length = none) : m.Leading vs := by
  refine ⟨fun i hi => ?_, h2⟩
  have := congrArg (fun xs => xs[i]?) h1
  simp [hi] at this
  rw [this, List.getElem?_eq_getElem hi]

end Verif.Demo
