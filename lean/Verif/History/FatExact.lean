import Verif.History.Ideal

/-!
# The hash map source reports the cost trackers supplied last
-/

namespace Verif.History

open Verif Verif.Window

variable {hash : HashFn} {P P' : List Bool → List Bool → Costs → Prop} {table : List Nat}

theorem BucketInv.mono {hist : List Bool} {L : Nat} {hf : List Bool → Nat} {bucket : Nat → List CtxState}
    (h : BucketInv P table hist L hf bucket) (hP : ∀ s q c, P s q c → P' s q c) : BucketInv P' table hist L hf bucket := by
  refine ⟨fun hh x hx => ?_, h.uniq, h.full⟩
  obtain ⟨h1, h2, h3, c, hc, h4⟩ := h.item hh x hx
  exact ⟨h1, h2, h3, c, hP _ _ _ hc, h4⟩

theorem FatReady.mono {s : Fat} {hist : List Bool} {m maxOrder : Nat} (h : FatReady hash P table s hist m maxOrder)
    (hP : ∀ s q c, P s q c → P' s q c) : FatReady hash P' table s hist m maxOrder :=
  ⟨h.holds, h.start, h.max, h.order, h.bit, fun k hk j hj => (h.maps k hk j hj).mono hP⟩

/-- the hash map source works like the ideal one as long as the window is not full -/
theorem fat_follows {luts : Luts} (hL : LutsOk luts) (hash : HashFn) (m maxOrder : Nat) (x : Nat → Bool) :
    Follows (fatSource hash luts) luts.costs maxOrder x (8 * m) fun I s =>
      I.paid.length = I.hist.length ∧ FatInv hash (Paid I) luts.costs s I.hist m maxOrder := by
  rintro I s ⟨hI, h⟩ hB
  obtain ⟨s1, e1, h1⟩ := fat_ready luts h (by omega)
  obtain ⟨states, e2, h2⟩ := fat_gather h1
  refine ⟨s1, states, e1, e2, ideal_of_gatherOk h2, fun costs hc => ?_⟩
  have hl : ∀ k, k < costs.length ↔ k ≤ maxOrder ∧ Branching I.hist k := fun k => by
    rw [hc]; exact h2.costs_line_up hL k
  obtain ⟨s2, e3, h3⟩ := fat_process hL rfl (h1.mono fun _ _ _ => paid_push) (x I.hist.length)
    hl (paid_supplied hI fun k hk => ((hl k).mp hk).2) (paid_fresh _)
  refine ⟨s2, e3, ?_, h3⟩
  unfold Ideal.push
  rw [List.length_append, List.length_append, hI]
  rfl

theorem fat_follows_new {luts : Luts} (hash : HashFn) {m : Nat} (maxOrder : Nat) (h0 : 0 < m) (hm : m < 2 ^ 63) :
    ∃ s, fatNew m maxOrder = some s ∧ Ideal.new.paid.length = Ideal.new.hist.length ∧
      FatInv hash (Paid Ideal.new) luts.costs s Ideal.new.hist m maxOrder := by
  obtain ⟨s, e, h⟩ := fat_new hash (Paid Ideal.new) luts.costs maxOrder h0 hm
  exact ⟨s, e, rfl, h⟩

end Verif.History
