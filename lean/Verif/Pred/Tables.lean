import Verif.Pred.Model
import Verif.Mix.MixerProps
import Verif.Mix.ApmProps
import Verif.Log2.Props
import Verif.Est.Props
import Verif.History.Spec

/-! # The look-up tables exist -/

namespace Verif.Pred

open Verif Verif.Fixed Verif.Lut Verif.Mix Verif.Util Verif.History Verif.Tree

attribute [local irreducible] squashTable stretchTable

/-- what the predictor needs to know about the tables -/
structure TablesOk (t : Tables) : Prop where
  log2 : Log2.log2LutNew = some t.log2
  rates : Est.ratesDefault = some t.rates
  cache : Est.cacheNew t.rates = some t.cache
  costs : Log2.costLutNew t.log2 t.rates = some t.costs
  stretch : t.stretch = stretchTable
  squash : t.squash = squashTable
  direct : ∀ n ≤ 1000, ∃ sq st, Est.for0BitRun t.direct n = some (sq, st) ∧ Lut.stretch t.stretch sq = some st ∧
    0 < sq ∧ sq < 2 ^ 31 ∧ sq % 512 = 0
  apm : t.apm = [lutAt 0, lutAt 1, lutAt 2]

theorem TablesOk.luts {t : Tables} (h : TablesOk t) : LutsOk t.luts :=
  ⟨h.rates, h.cache, t.log2, h.log2, h.costs⟩

/-- a probability strictly between zero and one, its stretched form in range -/
structure ProbOk (p : Prob) : Prop where
  pos : 0 < p.1
  lt : p.1 < 2 ^ 31
  st : StOk p.2

theorem stretch_ok {t : Tables} (h : TablesOk t) {p : Nat} (h0 : 0 < p) (h1 : p < 2 ^ 31) :
    ∃ r, Lut.stretch t.stretch p = some r ∧ StOk r := by
  obtain ⟨lut, e, -, hs⟩ := C35_stretch
  rw [stretchLut_eq] at e
  obtain rfl := Option.some.inj e
  obtain ⟨r, hr, -, -, hb, -⟩ := hs p h0 h1
  exact ⟨r, by rw [h.stretch]; exact hr, hb⟩

theorem squashOk' {t : Tables} (h : TablesOk t) : SquashOk t.squash := by
  rw [h.squash]
  exact squashOk stretchLut_eq (squashLut_eq stretchTable_ok)

theorem direct_exists {rates : List Nat} (h : Est.ratesDefault = some rates) :
    ∃ t, Est.predictionsNew (Lut.stretch stretchTable) rates = some t ∧ ∀ n ≤ 1000, ∃ sq st,
      Est.for0BitRun t n = some (sq, st) ∧ Lut.stretch stretchTable sq = some st ∧ 0 < sq ∧ sq < 2 ^ 31 ∧
      sq % 512 = 0 := by
  have hs : ∀ x, 0 < x → x < 2 ^ 31 → ∃ y, Lut.stretch stretchTable x = some y := by
    intro x h0 h1
    obtain ⟨lut, e, -, hs⟩ := C35_stretch
    rw [stretchLut_eq] at e
    obtain rfl := Option.some.inj e
    obtain ⟨r, hr, -⟩ := hs x h0 h1
    exact ⟨r, hr⟩
  have hd := Est.isDefault_of h
  obtain ⟨t, ht, hall⟩ := Est.predictionsLoop_spec hd (Lut.stretch stretchTable) hs 1024 _ _ Est.ok_half1
  refine ⟨t, by unfold Est.predictionsNew; rw [Est.decHalf1_eq, ob_some, ht], ?_⟩
  intro n hn
  obtain ⟨e, st, he, hst, hget⟩ := hall n (by omega)
  obtain ⟨p, h1, h2, -⟩ := Est.decRun_ok hd (List.replicate n false) Est.ok_half1
  rw [he, Option.some.injEq] at h1
  have hl := h2.lt
  have hp := Est.decPrediction_pack (p := p) (c := min (1 + (List.replicate n false).length) 1000) hl.2
    (by omega)
  rw [← h1] at hp
  refine ⟨Est.decPrediction e, st, ?_, hst, by omega, by omega, by omega⟩
  unfold Est.for0BitRun
  rw [check_pos (by unfold Est.maxCount; omega), ob_some, hget]

theorem tables_ok : ∃ t, tablesNew = some t ∧ TablesOk t := by
  obtain ⟨log2, h1, -⟩ := Log2.C10_table_exists
  obtain ⟨rates, cache, h2, h3⟩ := Est.C17_cache_exists
  obtain ⟨costs, h4, -⟩ := Log2.C45_cost_table log2 rates h1 h2
  obtain ⟨direct, h5, h6⟩ := direct_exists h2
  refine ⟨⟨log2, rates, cache, direct, costs, stretchTable, squashTable, [lutAt 0, lutAt 1, lutAt 2]⟩, ?_,
    h1, h2, h3, h4, rfl, rfl, h6, rfl⟩
  unfold tablesNew
  rw [h1, ob_some, h2, ob_some, h3, ob_some, h4, ob_some, stretchLut_eq, ob_some, squashLut_eq stretchTable_ok, ob_some,
    h5, ob_some, apmLut_eq (by omega), ob_some, apmLut_eq (by omega), ob_some, apmLut_eq (by omega), ob_some]

theorem apmLut_ok {t : Tables} (h : TablesOk t) : apmLut t 0 = some (lutAt 0) := by
  unfold apmLut
  rw [check_pos (by omega), ob_some, h.apm]
  rfl

end Verif.Pred
