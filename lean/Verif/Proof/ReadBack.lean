import Verif.Spec.ReadBack
import Verif.Proof.Quiet

/-!
# Helper lemmas for C62
-/

namespace Verif

variable {α β : Type} {l : List α}

/-- What was added before a call has a value when the call begins. -/
theorem CfgInv.addedBefore {κ : Cfg α β} (hI : CfgInv (.ofList l) κ) {d : Cid} {r : Rec α β} (hd : κ.calls d = some r) {i : Nat}
    (h : κ.AddedBefore l d i) : (r.start.spec.val i).isSome := by
  have hs := (hI.start d r hd).inv
  rcases h with hi | ⟨c, ⟨op, n, b, hr, hn, h1, h2⟩, r1, r2, hr1, hr2, hb⟩
  · rw [hs.spec_eq]
    exact specAt_pub hs.legal (by simp [SpecSt.ofList, hi])
  · rw [hd] at hr2
    simp only [Option.some.injEq] at hr2
    subst hr2
    obtain ⟨vs, -, hlen, hpub⟩ := hI.retPublish hr hn
    obtain ⟨et, fin, he, hev⟩ := hI.before hr1 hd hb
    have hp := hpub (i - b) vs[i - b] (List.getElem?_eq_getElem (by omega))
    rw [show b + (i - b) = i by omega] at hp
    have hde := hI.dataEnd hr1 he
    have hmem : Ev.publish c i vs[i - b] ∈ dataOf c κ.w.trace := mem_dataOf.2 ⟨hp, rfl, rfl⟩
    rw [hde.1] at hmem
    have := hs.legal.publish_pub (hev.trace.subset (mem_dataOf.1 hmem).1)
    rwa [← hs.spec_eq] at this

/-- What a call that misses position `i` found: a length that is at most `i`. -/
theorem CfgInv.misses {κ : Cfg α β} (hI : CfgInv (.ofList l) κ) {d : Cid} {r : Rec α β} (hd : κ.calls d = some r) {i : Nat}
    (h : κ.Misses d i) : ∃ et fin len, r.status.ended = some (et, fin) ∧ len ≤ i ∧ LenOK d r.start len κ.w := by
  rcases h with ⟨ct, st, et, fin, hc⟩ | ⟨ct, st, et, fin, hc⟩ | ⟨op, x, len, ⟨ct, st, et, fin, hc⟩, hl, hle⟩ <;>
    (rw [hd] at hc; simp only [Option.some.injEq] at hc; subst hc)
  · obtain ⟨dd, hinfo⟩ := hI.returned hd
    obtain ⟨len, hlen, hx, -⟩ := hinfo.out
    refine ⟨et, fin, len, rfl, ?_, hlen.later hinfo.ev2⟩
    by_contra hlt
    rw [if_pos (by omega)] at hx
    cases hx
  · obtain ⟨U, dd, hinfo⟩ := hI.panicked hd
    obtain ⟨-, -, -, len, hlen, hle⟩ := hinfo.out
    exact ⟨et, fin, len, rfl, hle, hlen.later hinfo.ev2⟩
  · obtain ⟨dd, hinfo⟩ := hI.returned hd
    exact ⟨et, fin, len, rfl, hle, (hinfo.lenOK hl).1.later hinfo.ev2⟩

end Verif
