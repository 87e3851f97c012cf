import Verif.Pred.RefSpec
import Verif.Pred.Chain

/-! # Kits answer like separate estimators and mixers -/

namespace Verif.Pred

open Verif Verif.Fixed Verif.Lut Verif.Mix Verif.Util Verif.History Verif.Tree

attribute [local irreducible] squashTable stretchTable

theorem ob_inv {α β : Type _} {x : Option α} {f : α → Option β} {b : β} (h : (x >>= f) = some b) :
    ∃ a, x = some a ∧ f a = some b := by
  cases x with
  | none => cases h
  | some a => exact ⟨a, rfl, h⟩

theorem rank_inj : ∀ {ls vs ws : List Nat}, Valid ls vs → Valid ls ws → rank ls vs = rank ls ws → vs = ws := by
  intro ls
  induction ls with
  | nil => intro vs ws hv hw _; cases hv; cases hw; rfl
  | cons l ls ih =>
    intro vs ws hv hw h
    cases hv with
    | @cons a _ vs _ h1 h2 =>
      cases hw with
      | @cons b _ ws _ h3 h4 =>
        rw [rank, rank] at h
        have l1 := rank_lt h2
        have l2 := rank_lt h4
        have hp := prod_pos_of_valid h2
        have hab : a = b := by
          have e1 : (a * ls.prod + rank ls vs) / ls.prod = a := by
            rw [Nat.add_comm, Nat.add_mul_div_right _ _ hp, Nat.div_eq_of_lt l1, Nat.zero_add]
          have e2 : (b * ls.prod + rank ls ws) / ls.prod = b := by
            rw [Nat.add_comm, Nat.add_mul_div_right _ _ hp, Nat.div_eq_of_lt l2, Nat.zero_add]
          rw [h, e2] at e1
          exact e1.symm
        subst hab
        rw [ih h2 h4 (by omega)]

theorem set_rel {α : Type} {dims : List Nat} {l : List α} {f : List Nat → α} {key : List Nat} (hl : l.length = dims.prod)
    (hk : Valid dims key) (v : α) (h : ∀ k, Valid dims k → k ≠ key → l[rank dims k]? = some (f k)) :
    ∀ k, Valid dims k → (l.set (rank dims key) v)[rank dims k]? = some (put f key v k) := by
  intro k hv
  have hlt : rank dims key < l.length := by rw [hl]; exact rank_lt hk
  rw [List.getElem?_set]
  unfold put
  by_cases e : k = key
  · subst e
    rw [if_pos rfl, if_pos hlt, if_pos rfl]
  · rw [if_neg (fun e' => e (rank_inj hk hv e').symm), if_neg e]
    exact h k hv e

/-! ## Estimators -/

/-- the kit holds the estimators `f` -/
def EstRel (dims : List Nat) (k : EstKit) (f : List Nat → Nat) : Prop :=
  ∀ key, Valid dims key → k.ests[rank dims key]? = some (f key)

theorem estKit_rel {t : Tables} {dims key : List Nat} (hd : DimsOk dims) {k k1 : EstKit} {f : List Nat → Nat} {p : Prob}
    (h : EstKitOk dims false k) (hr : EstRel dims k f) (hv : Valid dims key) (he : estKitPredict t k key = some (p, k1)) :
    estOpinion t (f key) = some p ∧ ∀ b k2, estKitUpdate t k1 b = some k2 →
      ∃ e, Est.decUpdate t.rates (f key) b = some e ∧ EstRel dims k2 (put f key e) := by
  obtain ⟨y, h1, h2⟩ := C21_query h.idx (ready_size hd h.idx) hv
  unfold estKitPredict at he
  rw [check_pos (h.idle rfl), ob_some, h1, ob_some] at he
  dsimp only at he
  rw [hr key hv, ob_some] at he
  obtain ⟨st, e1, e2⟩ := ob_inv he
  obtain ⟨rfl, rfl⟩ := Prod.mk.inj (Option.some.inj e2)
  refine ⟨by unfold estOpinion stretched; rw [e1, ob_some], ?_⟩
  intro b k2 hu
  unfold estKitUpdate at hu
  rw [ob_some] at hu
  dsimp only at hu
  rw [hr key hv, ob_some] at hu
  obtain ⟨e, u1, u2⟩ := ob_inv hu
  obtain rfl := Option.some.inj u2
  exact ⟨e, u1, set_rel h.len hv e fun k hk _ => hr k hk⟩

/-! ## Mixers -/

/-- the kit holds the mixers `g` -/
def MixRel (dims : List Nat) (k : MixKit) (g : List Nat → Mixer) : Prop :=
  ∀ key, Valid dims key → k.mixers[rank dims key]? = some (g key)

theorem mixKit_rel {t : Tables} {n limit : Nat} {dims s1 s2 : List Nat} (hd : DimsOk dims) {k k1 k2 : MixKit}
    {g : List Nat → Mixer} {r : Prob} (h : MixKitOk t n limit dims none k) (hr : MixRel dims k g)
    (hv : Valid dims (s1 ++ s2)) {inputs : List (Nat × Nat × Int)} (h1 : mixKitPre k s1 = some k1)
    (h2 : mixKitPredict t k1 s2 inputs = some (r, k2)) :
    ∃ m, setInputs (g (s1 ++ s2)) inputs = some m ∧ mixAll t.squash m = some r ∧ currentMixer k2 = some m ∧
      ∀ b lim k3, mixKitUpdate t k2 b lim = some k3 → ∃ m', updateAndReset t.rates m b r.1 lim = some m' ∧
        MixRel dims k3 (put g (s1 ++ s2) m') := by
  obtain ⟨y, z, q1, q2, q3⟩ := query_split hd h.idx hv
  have hlt : rank dims (s1 ++ s2) < k.mixers.length := by rw [h.len]; exact rank_lt hv
  unfold mixKitPre at h1
  rw [check_pos (h.result rfl), ob_some, check_pos h.index, ob_some, q1, ob_some] at h1
  obtain rfl := Option.some.inj h1
  unfold mixKitPredict at h2
  dsimp only at h2
  rw [check_pos (h.result rfl), ob_some, check_pos h.index, ob_some, q2, ob_some] at h2
  dsimp only at h2
  rw [hr _ hv, ob_some] at h2
  obtain ⟨m, m1, h3⟩ := ob_inv h2
  obtain ⟨r', m2, h4⟩ := ob_inv h3
  obtain ⟨rfl, rfl⟩ := Prod.mk.inj (Option.some.inj h4)
  have hg : (k.mixers.set (rank dims (s1 ++ s2)) m)[rank dims (s1 ++ s2)]? = some m := by
    rw [List.getElem?_set, if_pos rfl, if_pos hlt]
  refine ⟨m, m1, m2, by unfold currentMixer; dsimp only; rw [ob_some, hg], ?_⟩
  intro b lim k3 hu
  unfold mixKitUpdate at hu
  dsimp only at hu
  rw [ob_some, ob_some, hg, ob_some] at hu
  obtain ⟨m', u1, u2⟩ := ob_inv hu
  obtain rfl := Option.some.inj u2
  refine ⟨m', u1, ?_⟩
  unfold MixRel
  dsimp only
  rw [List.set_set]
  exact set_rel h.len hv m' fun k hk _ => hr k hk

/-! ## Inputs can be read back -/

theorem setInput_read {m m' : Mixer} {i sq : Nat} {st : Int} (h : setInput m i sq st = some m') :
    (∃ x, m'.inputs[i]? = some x ∧ x.sq = sq) ∧ ∀ j, j ≠ i → m'.inputs[j]? = m.inputs[j]? := by
  unfold setInput at h
  obtain ⟨_, c1, h⟩ := ob_inv h
  obtain ⟨_, _, h⟩ := ob_inv h
  obtain ⟨x, c3, h⟩ := ob_inv h
  obtain rfl := Option.some.inj h
  have hi : i < m.inputs.length := check_eq_some.mp c1
  refine ⟨⟨_, by dsimp only; rw [List.getElem?_set, if_pos rfl, if_pos hi], rfl⟩, fun j hj => ?_⟩
  dsimp only
  rw [List.getElem?_set, if_neg (fun e => hj e.symm)]

theorem setInputs_read : ∀ {inputs : List (Nat × Nat × Int)} {m m' : Mixer}, setInputs m inputs = some m' →
    (inputs.map (·.1)).Nodup → (∀ x ∈ inputs, ∃ y, m'.inputs[x.1]? = some y ∧ y.sq = x.2.1) ∧
      ∀ j, j ∉ inputs.map (·.1) → m'.inputs[j]? = m.inputs[j]? := by
  intro inputs
  induction inputs with
  | nil =>
    intro m m' h _
    rw [setInputs] at h
    obtain rfl := Option.some.inj h
    exact ⟨(fun x hx => by cases hx), fun j _ => rfl⟩
  | cons a inputs ih =>
    intro m m' h hn
    obtain ⟨i, sq, st⟩ := a
    rw [setInputs] at h
    obtain ⟨m1, h1, h2⟩ := ob_inv h
    rw [List.map_cons, List.nodup_cons] at hn
    obtain ⟨a1, a2⟩ := setInput_read h1
    obtain ⟨b1, b2⟩ := ih h2 hn.2
    refine ⟨?_, ?_⟩
    · intro x hx
      rcases List.mem_cons.mp hx with rfl | hx
      · dsimp only
        rw [b2 i hn.1]
        exact a1
      · exact b1 x hx
    · intro j hj
      rw [List.map_cons, List.mem_cons, not_or] at hj
      rw [b2 j hj.2, a2 j hj.1]

theorem predictionSq_read {m : Mixer} {i p q : Nat} (h : predictionSq m i = some p)
    (hx : ∃ y, m.inputs[i]? = some y ∧ y.sq = q) : p = q := by
  obtain ⟨y, h1, rfl⟩ := hx
  unfold predictionSq at h
  obtain ⟨-, -, h⟩ := ob_inv h
  obtain ⟨-, -, h⟩ := ob_inv h
  rw [h1, ob_some] at h
  exact (Option.some.inj h).symm

end Verif.Pred
