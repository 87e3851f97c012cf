import Verif.Pred.ReportLemmas

/-! # The report the program prints (C74) -/

namespace Verif.Pred

open Verif Verif.Coding Verif.Float Verif.Fixed Verif.Tree

/-! ## Specification -/

/-- the predictions the program makes for a file, and its information content in bits under them -/
def Content (bytes : List (List Bool)) (E : ℝ) : Prop :=
  ∃ t p0 fs p, tablesNew = some t ∧ predNew t .light 10000000 20 = some p0 ∧
    calls t .light p0 (bytes.flatMap byteCalls) = some (fs, p) ∧ E = estimate fs bytes.flatten

/-- the same for those bits that have a context -/
def ChargedContent (bytes : List (List Bool)) (E : ℝ) : Prop :=
  ∃ t p0 fs p, tablesNew = some t ∧ predNew t .light 10000000 20 = some p0 ∧
    calls t .light p0 (bytes.flatMap byteCalls) = some (fs, p) ∧
    E = (((List.range bytes.flatten.length).filter fun i =>
      contextCount 20 (windowed 10000000 (bytes.flatten.take i)) ≠ 0).map fun i =>
        -Real.logb 2 (chance (fs.getD i 0) (bytes.flatten.getD i false))).sum

/-- the number of contexts known at each bit, added up -/
def contextSum (bytes : List (List Bool)) : ℕ :=
  ((List.range bytes.flatten.length).map fun i => contextCount 20 (windowed 10000000 (bytes.flatten.take i))).sum

/-- a clock that was not set back, with durations in the range of `Duration` -/
structure Platform.ClockOk (e : Platform) : Prop where
  first : e.start ≤ e.initialized
  last : e.start ≤ e.finished
  firstRange : e.initialized - e.start < 2 ^ 64 * 1000000000
  lastRange : e.finished - e.start < 2 ^ 64 * 1000000000

/-! ## Lemmas -/

theorem fed_bytes (bytes : List (List Bool)) : fed (bytes.flatMap byteCalls) = bytes.flatten := by
  have hb : ∀ bits : List Bool, fed ((bits.map fun b => [Call.predict, .update b]).flatten) = bits := by
    intro bits
    induction bits with
    | nil => rfl
    | cons b bits ih =>
      rw [List.map_cons, List.flatten_cons]
      unfold fed at ih ⊢
      rw [List.filterMap_append, ih]
      rfl
  induction bytes with
  | nil => rfl
  | cons b bytes ih =>
    rw [List.flatMap_cons, List.flatten_cons]
    have h1 : fed (byteCalls b) = b := hb b
    unfold fed at ih h1 ⊢
    rw [List.filterMap_append, ih, h1]

theorem started_bytes (bytes : List (List Bool)) : started (bytes.flatMap byteCalls) = bytes.length := by
  have hb : ∀ bits : List Bool, started ((bits.map fun b => [Call.predict, .update b]).flatten) = 0 := by
    intro bits
    induction bits with
    | nil => rfl
    | cons b bits ih =>
      rw [List.map_cons, List.flatten_cons]
      unfold started at ih ⊢
      rw [List.countP_append, ih]
      rfl
  induction bytes with
  | nil => rfl
  | cons b bytes ih =>
    have h1 : started (byteCalls b) = 1 := by
      have := hb b
      unfold started byteCalls at *
      rw [List.countP_cons, this]
      rfl
    rw [List.flatMap_cons, List.length_cons]
    unfold started at ih h1 ⊢
    rw [List.countP_append, ih, h1]
    omega

theorem mapM_map_some {α : Type} (l : List α) : (l.map some).mapM id = some l := by
  induction l with
  | nil => rfl
  | cons a l ih => rw [List.map_cons, List.mapM_cons, id, ob_some, ih, ob_some]; rfl

theorem bitInfo_contexts (t : Tables) (W M : ℕ) (hist : List Bool) (b : Bool) (p : ℕ) :
    (bitInfo t W M hist b p).contexts = contextCount M (windowed W hist) := by
  unfold bitInfo
  dsimp only
  split
  · rename_i h; rw [h]
  · rfl

theorem contextCount_le (M : ℕ) (hist : List Bool) : contextCount M hist ≤ M + 1 := by
  unfold contextCount
  exact (List.length_filter_le _ _).trans (by rw [List.length_range])

theorem infos_contexts (t : Tables) (W M : ℕ) (bits : List Bool) (fs : List ℕ) :
    ((infos t W M bits fs).map BitInfo.contexts) =
      (List.range bits.length).map fun i => contextCount M (windowed W (bits.take i)) := by
  unfold infos
  rw [List.map_map]
  apply List.map_congr_left
  intro i _
  rw [Function.comp_apply, bitInfo_contexts]

theorem infos_contexts_le (t : Tables) (W M : ℕ) (bits : List Bool) (fs : List ℕ) :
    ((infos t W M bits fs).map BitInfo.contexts).sum ≤ (M + 1) * bits.length := by
  rw [infos_contexts]
  refine (sum_bounds_nat _ (k := M + 1) _ fun a _ => contextCount_le _ _).trans ?_
  rw [List.length_range]

theorem infos_cost_le {t : Tables} (ht : tablesNew = some t) {W M : ℕ} {bits : List Bool} {fs : List ℕ}
    (hl : fs.length = bits.length) (hf : ∀ f ∈ fs, 1 ≤ f ∧ f < 2 ^ 23) :
    ((infos t W M bits fs).map BitInfo.cost).sum ≤ 47104 * (bits.length : ℕ) := by
  unfold infos
  rw [List.map_map]
  refine (sum_bounds _ (k := 47104) _ ?_).2.trans (by rw [List.length_range])
  intro i hi
  rw [List.mem_range] at hi
  rw [Function.comp_apply]
  unfold bitInfo
  dsimp only
  split
  · exact ⟨le_refl _, by norm_num⟩
  · have hg : fs.getD i 0 ∈ fs := by
      rw [List.getD_eq_getElem?_getD, List.getElem?_eq_getElem (by omega)]
      exact List.getElem_mem _
    obtain ⟨q0, q1⟩ := hf _ hg
    obtain ⟨c, e1, e2, e3, -⟩ := Log2.C11_cost t.log2 (tablesOk_of ht).log2 (fs.getD i 0) (bits.getD i false) (by omega) q1
    dsimp only
    rw [e1, Option.getD_some]
    omega

/-- the statistics and what they were told -/
theorem stats_reached {t : Tables} (ht : tablesNew = some t) {mode : Mode} {W M : ℕ} (hW0 : 0 < W) (hW : W ≤ 2 ^ 31)
    (hM : M ≤ 8191) {p0 : Predictor} (h0 : predNew t mode W M = some p0) {cs : List Call} (hn : cs.length ≤ 2 ^ 40)
    {fs : List ℕ} {p : Predictor} (h : calls t mode p0 cs = some (fs, p)) :
    ∃ es, EventsOk M es ∧ StatsAt t M es p.stats ∧ es.length ≤ 2 ^ 41 := by
  obtain ⟨p0', e0, h1, h2⟩ := calls_new (tablesOk_of ht) hW hW0 hM mode cs hn
  rw [h0] at e0
  obtain rfl := Option.some.inj e0
  cases hp : phaseRun .idle cs with
  | none => rw [h1 hp] at h; cases h
  | some ph =>
    obtain ⟨fs', p', h3, -, h4⟩ := h2 ph hp
    rw [h3] at h
    obtain ⟨rfl, rfl⟩ := Prod.mk.inj (Option.some.inj h)
    obtain ⟨-, -, es, g1, g2, g4, -⟩ := h4.always
    refine ⟨es, g1, g2, ?_⟩
    have a1 : (fed cs).length ≤ cs.length := List.length_filterMap_le _ _
    have a2 : started cs ≤ cs.length := List.countP_le_length
    omega

theorem stats_cost_range {t : Tables} (ht : tablesNew = some t) {M : ℕ} {es : List StatEvent} {s : Stats} (g1 : EventsOk M es)
    (g2 : StatsAt t M es s) (g3 : es.length ≤ 2 ^ 41) : 0 ≤ s.totalCost ∧ s.totalCost ≤ 47104 * 2 ^ 41 := by
  have := sum_bounds (StatEvent.cost t) (k := 47104) es fun e he => cost_bounds (tablesOk_of ht) g1 he
  rw [← g2.totalCost] at this
  refine ⟨this.1, this.2.trans ?_⟩
  have : (es.length : ℤ) ≤ 2 ^ 41 := by exact_mod_cast g3
  omega

/-- a cost as a float -/
theorem cost_float {c : ℤ} (h0 : 0 ≤ c) (h : c ≤ 2 ^ 60) : ∃ x, asF64I log2Q c = some x ∧ numDiv x 8 = .fin (x / 8) ∧
    |x / 8 - (c : ℚ) / 16384| ≤ (c : ℚ) / 16384 / 2 ^ 53 := by
  obtain ⟨x, h1, h2, h3⟩ := C65_nearest log2Q (by decide) c (by rw [abs_of_nonneg h0]; omega)
  have hc : (0 : ℚ) ≤ c := by exact_mod_cast h0
  have hcu : (c : ℚ) ≤ 2 ^ 60 := by exact_mod_cast h
  have e : (2 : ℚ) ^ log2Q.frac = 2048 := by
    rw [show log2Q.frac = 11 from rfl]; norm_num
  rw [e, abs_of_nonneg (show (0 : ℚ) ≤ c / 2048 by positivity)] at h3
  refine ⟨x, h1, eighth h2.1 ?_ ?_, ?_⟩
  · rcases eq_or_lt_of_le h0 with rfl | hp
    · left
      rw [Int.cast_zero, zero_div, zero_div, sub_zero] at h3
      exact abs_nonpos_iff.mp h3
    · right
      have : (1 : ℚ) ≤ c := by exact_mod_cast hp
      have := (abs_le.mp h3).1
      norm_num at this ⊢
      linarith
  · have := (abs_le.mp h3).2
    norm_num at hcu
    norm_num at this ⊢
    linarith
  · rw [abs_le] at h3 ⊢
    constructor
    · have := h3.1
      norm_num at this ⊢
      linarith
    · have := h3.2
      norm_num at this ⊢
      linarith

/-- the report, number by number -/
theorem report_eq (e : Platform) (hc : e.ClockOk) {d : ℝ} (hlg : LogWithin e.log2 d) (hd : 0 ≤ d) (hd8 : d ≤ 1 / 8)
    (bytes : List (List Bool)) (h8 : ∀ b ∈ bytes, b.length = 8) (hn : bytes.length ≤ 2 ^ 35) :
    ∃ t p0 fs p T i D l, tablesNew = some t ∧ predNew t .light 10000000 20 = some p0 ∧
      calls t .light p0 (bytes.flatMap byteCalls) = some (fs, p) ∧ fs.length = bytes.flatten.length ∧
      (∀ f ∈ fs, 1 ≤ f ∧ f < 2 ^ 23) ∧ costTotal e.log2 0 fs bytes.flatten = some T ∧ IsF64 T ∧
      |(T : ℝ) - estimate fs bytes.flatten| ≤ (2 * d + 8 * bytes.length / 2 ^ 52) * estimate fs bytes.flatten ∧
      secondsBetween e.start e.initialized = some i ∧ secondsBetween e.start e.finished = some D ∧
      |l - (p.stats.totalCost : ℚ) / 16384| ≤ (p.stats.totalCost : ℚ) / 16384 / 2 ^ 53 ∧
      0 ≤ p.stats.totalCost ∧ p.stats.totalCost ≤ 47104 * (8 * bytes.length : ℕ) ∧ bytes.flatten.length = 8 * bytes.length ∧
      estimateCompression e (bytes.map some) = some {
        initialization := i, totalDuration := D
        nsPerByte := numMul (numDiv D bytes.length) 1000000000
        bytesPerSecond := numDiv bytes.length D
        costInBytes := numDiv T 8
        costInBits := T
        inputLength := bytes.length
        averageCost := numDiv T bytes.length
        ratio := numDiv ((bytes.length * 8 : ℕ) : ℚ) T
        contextLength := numDiv (contextSum bytes : ℕ) ((bytes.length * 8 : ℕ) : ℚ), lutCost := .fin l } := by
  obtain ⟨t, ht⟩ := C52_tables
  obtain ⟨p0, h0⟩ := C44_new ht .light (W := 10000000) (maxOrder := 20) (by norm_num) (by norm_num) (by norm_num)
  obtain ⟨fs, p, T, h1, h2, h3, h4⟩ := C67_reported .light (by norm_num) (by norm_num) (by norm_num) bytes h8 hn ht h0
    e.log2 d hlg hd (by linarith)
  have hpr := (C44_predictions ht .light (by norm_num) (by norm_num) (by norm_num) h0 _ (by rw [bytes_length bytes h8]; omega) h1).2
  obtain ⟨i, e1, -⟩ := seconds_some hc.first hc.firstRange
  obtain ⟨D, e2, -⟩ := seconds_some hc.last hc.lastRange
  have hcs : (bytes.flatMap byteCalls).length ≤ 2 ^ 40 := by rw [bytes_length bytes h8]; omega
  obtain ⟨s1, s2, s3, -⟩ := C42_statistics ht .light (by norm_num) (by norm_num) (by norm_num) h0 _ hcs h1
  rw [started_bytes] at s1
  obtain ⟨es, g1, g2, g3⟩ := stats_reached ht (by norm_num) (by norm_num) (by norm_num) h0 hcs h1
  obtain ⟨c1, c2⟩ := stats_cost_range ht g1 g2 g3
  obtain ⟨x, x1, x2, x3⟩ := cost_float c1 (by omega)
  have hl : statsLutCost p.stats = some (.fin (x / 8)) := by
    unfold statsLutCost
    rw [x1, ob_some, x2]
  have i1 : intoF64 ((bytes.length : ℕ) : ℤ) = some (bytes.length : ℚ) := by
    rw [intoF64_small (by rw [abs_of_nonneg (by omega)]; exact_mod_cast (by omega : bytes.length ≤ 2 ^ 53)), Int.cast_natCast]
  have i2 : intoF64 ((bytes.length * 8 : ℕ) : ℤ) = some ((bytes.length * 8 : ℕ) : ℚ) := by
    rw [intoF64_small (by rw [abs_of_nonneg (by omega)]; exact_mod_cast (by omega : bytes.length * 8 ≤ 2 ^ 53)),
      Int.cast_natCast]
  have hfl : bytes.flatten.length = 8 * bytes.length := by
    obtain ⟨fs2, p2, q1, q2, -⟩ := C44_file ht .light (by norm_num) (by norm_num) (by norm_num) h0 bytes h8 hn
    rw [h1] at q1
    obtain ⟨rfl, rfl⟩ := Prod.mk.inj (Option.some.inj q1)
    rw [← h2, q2]
  have htc : p.stats.totalContexts ≤ 21 * 2 ^ 38 := by
    rw [s2]
    refine (infos_contexts_le _ _ _ _ _).trans ?_
    rw [fed_bytes, hfl]
    omega
  have hcsum : p.stats.totalContexts = contextSum bytes := by
    rw [s2, infos_contexts, fed_bytes]
    rfl
  have hct : p.stats.totalCost ≤ 47104 * (8 * bytes.length : ℕ) := by
    have := infos_cost_le ht (W := 10000000) (M := 20) (bits := fed (bytes.flatMap byteCalls)) (fs := fs) (by
      rw [fed_bytes, h2]) hpr
    rw [← s3, fed_bytes, hfl] at this
    exact this
  have i3 : intoF64 ((p.stats.totalContexts : ℕ) : ℤ) = some (p.stats.totalContexts : ℚ) := by
    rw [intoF64_small (by rw [abs_of_nonneg (by omega)]; exact_mod_cast (by omega : p.stats.totalContexts ≤ 2 ^ 53)),
      Int.cast_natCast]
  have u1 : u64 bytes.length = some bytes.length := u64_eq (by omega)
  have u2 : u64 (bytes.length * 8) = some (bytes.length * 8) := u64_eq (by omega)
  have hcl : statsContextLength p.stats = some (numDiv (contextSum bytes : ℕ) ((bytes.length * 8 : ℕ) : ℚ)) := by
    unfold statsContextLength
    rw [i3, ob_some, s1, u2, ob_some, i2, ob_some, hcsum]
  have hF : IsF64 T := costTotal_isF64 fs bytes.flatten 0 T (by
    have := isF64_int (m := 0) (k := 0) (by norm_num) (by norm_num) (by norm_num)
    rwa [Int.cast_zero, zero_mul] at this) h3
  refine ⟨t, p0, fs, p, T, i, D, _, ht, h0, h1, h2, hpr, h3, hF, h4, e1, e2, x3, c1, hct, hfl, ?_⟩
  unfold estimateCompression
  rw [ht, ob_some, h0, ob_some, e1, ob_some, mapM_map_some, ob_some, h1, ob_some]
  dsimp only
  rw [h3, ob_some, u1, ob_some, e2, ob_some, i1, ob_some, u2, ob_some, i2, ob_some, hcl, ob_some, hl, ob_some]

/-! ## Theorems -/

/-- **C74 (finishing).** With an accurate logarithm the program finishes if and only if a file name is given, the file can be
opened and read to its end, and the clock has not been set back. -/
theorem C74_finishes (e : Platform) (hr1 : e.initialized - e.start < 2 ^ 64 * 1000000000)
    (hr2 : e.finished - e.start < 2 ^ 64 * 1000000000) {d : ℝ} (hlg : LogWithin e.log2 d) (hd : 0 ≤ d) (hd8 : d ≤ 1 / 8)
    (args : List String) (fs : String → Option (List (Option (List Bool))))
    (hfs : ∀ name file, fs name = some file → file.length ≤ 2 ^ 35 ∧ ∀ b, some b ∈ file → b.length = 8) :
    (mainRun e args fs).isSome = true ↔
      (∃ name file, args[1]? = some name ∧ fs name = some file ∧ none ∉ file) ∧ e.start ≤ e.initialized ∧ e.start ≤ e.finished := by
  constructor
  · intro h
    obtain ⟨r, h⟩ := Option.isSome_iff_exists.mp h
    unfold mainRun at h
    cases ha : args[1]? with
    | none => rw [ha] at h; cases h
    | some name =>
      rw [ha, ob_some] at h
      cases hf : fs name with
      | none => rw [hf] at h; cases h
      | some file =>
        rw [hf, ob_some] at h
        unfold estimateCompression at h
        obtain ⟨t, ht⟩ := C52_tables
        obtain ⟨p0, h0⟩ := C44_new ht .light (W := 10000000) (maxOrder := 20) (by norm_num) (by norm_num) (by norm_num)
        rw [ht, ob_some, h0, ob_some] at h
        have c1 : e.start ≤ e.initialized := by
          by_contra hc
          rw [secondsBetween, check_neg hc] at h
          cases h
        cases hs : secondsBetween e.start e.initialized with
        | none => rw [hs] at h; cases h
        | some i =>
          rw [hs, ob_some] at h
          cases hm : file.mapM id with
          | none => rw [hm] at h; cases h
          | some bytes =>
            rw [hm, ob_some] at h
            refine ⟨⟨name, file, rfl, hf, ?_⟩, c1, ?_⟩
            · intro hmem
              have := (mapM_some (f := id) file).mp (by rw [hm]; rfl) none hmem
              cases this
            · by_contra hc
              have hnone : secondsBetween e.start e.finished = none := by
                rw [secondsBetween, check_neg hc]
                rfl
              cases h1 : calls t .light p0 (bytes.flatMap byteCalls) with
              | none => rw [h1] at h; cases h
              | some x =>
                rw [h1, ob_some] at h
                dsimp only at h
                cases h2 : costTotal e.log2 0 x.1 bytes.flatten with
                | none => rw [h2] at h; cases h
                | some T =>
                  rw [h2, ob_some] at h
                  cases h3 : u64 bytes.length with
                  | none => rw [h3] at h; cases h
                  | some n => rw [h3, ob_some, hnone] at h; cases h
  · rintro ⟨⟨name, file, h1, h2, h3⟩, c1, c2⟩
    obtain ⟨bytes, rfl⟩ : ∃ bytes : List (List Bool), file = bytes.map some := by
      clear h2
      induction file with
      | nil => exact ⟨[], rfl⟩
      | cons a file ih =>
        obtain ⟨bs, hb⟩ := ih fun hm => h3 (by simp [hm])
        cases a with
        | none => exact absurd (by simp) h3
        | some a => exact ⟨a :: bs, by rw [List.map_cons, hb]⟩
    obtain ⟨hl, h8⟩ := hfs _ _ h2
    obtain ⟨t, p0, fs', p, T, i, D, l, -, -, -, -, -, -, -, -, -, -, -, -, -, -, hr⟩ := report_eq e ⟨c1, c2, hr1, hr2⟩ hlg hd hd8 bytes
      (fun b hb => h8 b (List.mem_map.mpr ⟨b, hb, rfl⟩)) (by rw [List.length_map] at hl; exact hl)
    unfold mainRun
    rw [h1, ob_some, h2, ob_some, hr]
    rfl

section

variable (e : Platform) (hc : e.ClockOk) {d : ℝ} (hlg : LogWithin e.log2 d) (hd : 0 ≤ d) (hd8 : d ≤ 1 / 8)
  (bytes : List (List Bool)) (h8 : ∀ b ∈ bytes, b.length = 8) (hn : bytes.length ≤ 2 ^ 35) {r : Report}
  (hr : estimateCompression e (bytes.map some) = some r)

include hc hlg hd hd8 h8 hn hr

/-- **C74 (costs).** For a file that is not empty, the printed cost is its information content under the predictions, the
cost in bytes an eighth of it, the average cost the cost per byte and the ratio the bits of the file per bit of cost, all
up to a relative error of the platform's logarithm and of rounding. None of them is infinite or not a number. -/
theorem C74_costs (h0 : bytes ≠ []) {E : ℝ} (hE : Content bytes E) :
    r.inputLength = bytes.length ∧ 0 < E ∧ |(r.costInBits : ℝ) - E| ≤ (2 * d + 8 * bytes.length / 2 ^ 52) * E ∧
    r.costInBytes = .fin (r.costInBits / 8) ∧
    (∃ a : ℚ, r.averageCost = .fin a ∧
      |(a : ℝ) - E / bytes.length| ≤ (2 * d + (8 * bytes.length + 1) / 2 ^ 52) * (E / bytes.length)) ∧
    (∃ q : ℚ, r.ratio = .fin q ∧
      |(q : ℝ) - 8 * bytes.length / E| ≤ (4 * d + (16 * bytes.length + 1) / 2 ^ 52) * (8 * bytes.length / E)) := by
  obtain ⟨t, p0, fs, p, T, i, D, l, ht, hp, h1, h2, h3, h4, h5, h6, -, -, -, -, -, hfl, hr'⟩ := report_eq e hc hlg hd hd8 bytes h8 hn
  rw [hr] at hr'
  obtain rfl := Option.some.inj hr'
  obtain ⟨t', p0', fs', p', ht', hp', h1', rfl⟩ := hE
  rw [ht] at ht'
  obtain rfl := Option.some.inj ht'
  rw [hp] at hp'
  obtain rfl := Option.some.inj hp'
  rw [h1] at h1'
  obtain ⟨rfl, rfl⟩ := Prod.mk.inj (Option.some.inj h1')
  obtain ⟨b1, b2⟩ := estimate_bounds h3 h2
  rw [h2, hfl] at b1 b2
  push_cast at b1 b2
  dsimp only
  generalize estimate fs bytes.flatten = E at *
  have hn1 : (1 : ℝ) ≤ bytes.length := by
    exact_mod_cast (by
      have : bytes.length ≠ 0 := fun h => h0 (List.length_eq_zero_iff.mp h)
      omega : 1 ≤ bytes.length)
  have hn2 : (bytes.length : ℝ) ≤ 2 ^ 35 := by exact_mod_cast hn
  have hcast : ((bytes.length : ℚ) : ℝ) = (bytes.length : ℝ) := by push_cast; rfl
  have hcast8 : (((bytes.length * 8 : ℕ) : ℚ) : ℝ) = 8 * (bytes.length : ℝ) := by push_cast; ring
  have hcast8q : ((bytes.length * 8 : ℕ) : ℚ) = 8 * (bytes.length : ℚ) := by push_cast; ring
  have hn1q : (1 : ℚ) ≤ bytes.length := by exact_mod_cast hn1
  have hn2q : (bytes.length : ℚ) ≤ 2 ^ 35 := by exact_mod_cast hn
  generalize (bytes.length : ℝ) = n at *
  generalize hN : (bytes.length : ℚ) = N at *
  have hE0 : 0 < E := lt_of_lt_of_le (by positivity) b1
  -- relative error of the total
  generalize hε : 2 * d + 8 * n / 2 ^ 52 = ε at *
  have hε0 : 0 ≤ ε := by rw [← hε]; positivity
  have hε1 : ε ≤ 3 / 10 := by
    rw [← hε]
    norm_num at hn2 hd8 ⊢
    linarith
  obtain ⟨t1, t2⟩ := abs_le.mp h6
  have hεE : ε * E ≤ 3 / 10 * E := mul_le_mul_of_nonneg_right hε1 hE0.le
  have hT1 : (1 : ℝ) / 2 ^ 30 ≤ T := by
    norm_num at b1 hn1 hn2 ⊢
    linarith
  have hT2 : (T : ℝ) ≤ 2 ^ 60 := by
    norm_num at b2 hn1 hn2 ⊢
    linarith
  have hT1q : (1 : ℚ) / 2 ^ 30 ≤ T := by
    have : (((1 : ℚ) / 2 ^ 30 : ℚ) : ℝ) ≤ (T : ℝ) := by push_cast; exact hT1
    exact_mod_cast this
  have hT2q : T ≤ 2 ^ 60 := by
    have : (T : ℝ) ≤ (((2 : ℚ) ^ 60 : ℚ) : ℝ) := by push_cast; exact hT2
    exact_mod_cast this
  have hT0 : (0 : ℝ) < T := lt_of_lt_of_le (by positivity) hT1
  refine ⟨rfl, hE0, h6, eighth h5 (Or.inr (le_trans (by norm_num) hT1q)) (hT2q.trans (by norm_num)), ?_, ?_⟩
  · obtain ⟨a, a1, -, a2⟩ := div_rel (a := T) (b := N) (le_trans (by norm_num) hT1q) (hT2q.trans (by norm_num))
      (le_trans (by norm_num) hn1q) (hn2q.trans (by norm_num))
    refine ⟨a, a1, ?_⟩
    have a2' : |(a : ℝ) - T / n| ≤ T / n / 2 ^ 53 := by
      have : ((|a - T / N| : ℚ) : ℝ) ≤ ((T / N / 2 ^ 53 : ℚ) : ℝ) := by exact_mod_cast a2
      push_cast at this
      rw [hcast] at this
      exact this
    have hd1 : |(T : ℝ) / n - E / n| ≤ ε * (E / n) := by
      rw [← sub_div, abs_div, abs_of_pos (show 0 < n by linarith), div_le_iff₀ (by linarith), mul_assoc,
        div_mul_cancel₀ _ (by linarith)]
      exact h6
    have hX : 0 < E / n := by positivity
    generalize hx : E / n = X at *
    generalize (T : ℝ) / n = Y at *
    obtain ⟨y1, y2⟩ := abs_le.mp hd1
    obtain ⟨z1, z2⟩ := abs_le.mp a2'
    have hεX : ε * X ≤ 3 / 10 * X := mul_le_mul_of_nonneg_right hε1 hX.le
    have hgoal : (2 * d + (8 * n + 1) / 2 ^ 52) * X = ε * X + X / 2 ^ 52 := by rw [← hε]; ring
    rw [hgoal, abs_le]
    norm_num at *
    constructor <;> linarith
  · obtain ⟨q, q1, -, q2⟩ := div_rel (a := 8 * N) (b := T) (by norm_num at hn1q ⊢; linarith) (by norm_num at hn2q ⊢; linarith)
      (le_trans (by norm_num) hT1q) (hT2q.trans (by norm_num))
    refine ⟨q, by rw [← q1, hcast8q], ?_⟩
    have q2' : |(q : ℝ) - 8 * n / T| ≤ 8 * n / T / 2 ^ 53 := by
      have : ((|q - 8 * N / T| : ℚ) : ℝ) ≤ ((8 * N / T / 2 ^ 53 : ℚ) : ℝ) := by exact_mod_cast q2
      push_cast at this
      rw [hcast] at this
      exact this
    have hX : 0 < 8 * n / E := by positivity
    have hd1 : |8 * n / (T : ℝ) - 8 * n / E| ≤ 3 / 2 * ε * (8 * n / E) := by
      have : 8 * n / (T : ℝ) - 8 * n / E = 8 * n / E * ((E - T) / T) := by
        field_simp
      rw [this, abs_mul, abs_of_pos hX, mul_comm]
      refine mul_le_mul_of_nonneg_right ?_ hX.le
      rw [abs_div, abs_of_pos hT0, div_le_iff₀ hT0, abs_sub_comm]
      refine h6.trans ?_
      rw [mul_assoc, mul_comm (3 / 2 : ℝ), mul_assoc]
      refine mul_le_mul_of_nonneg_left ?_ hε0
      linarith
    generalize hx : 8 * n / E = X at *
    generalize 8 * n / (T : ℝ) = Y at *
    obtain ⟨y1, y2⟩ := abs_le.mp hd1
    obtain ⟨z1, z2⟩ := abs_le.mp q2'
    have hεX : ε * X ≤ 3 / 10 * X := mul_le_mul_of_nonneg_right hε1 hX.le
    have hεX0 : 0 ≤ ε * X := mul_nonneg hε0 hX.le
    have hgoal : (4 * d + (16 * n + 1) / 2 ^ 52) * X = 2 * (ε * X) + X / 2 ^ 52 := by rw [← hε]; ring
    have e3 : 3 / 2 * ε * X = 3 / 2 * (ε * X) := by ring
    rw [e3] at y1 y2
    rw [hgoal, abs_le]
    generalize ε * X = Z at *
    norm_num at *
    constructor <;> linarith

/-- **C74 (empty file).** For an empty file the costs are 0; average cost, ratio and average context length are not
numbers. -/
theorem C74_empty (h0 : bytes = []) : r.inputLength = 0 ∧ r.costInBits = 0 ∧ r.costInBytes = .fin 0 ∧ r.averageCost = .nan ∧
    r.ratio = .nan ∧ r.contextLength = .nan ∧ r.lutCost = .fin 0 := by
  obtain ⟨t, p0, fs, p, T, i, D, l, ht, hp, h1, h2, h3, h4, h5, h6, -, -, l1, l2, l3, hfl, hr'⟩ :=
    report_eq e hc hlg hd hd8 bytes h8 hn
  rw [hr] at hr'
  obtain rfl := Option.some.inj hr'
  subst h0
  obtain rfl : T = 0 := by
    have h4' : costTotal e.log2 0 fs [] = some T := h4
    have : costTotal e.log2 0 fs [] = some 0 := by cases fs <;> rfl
    rw [this] at h4'
    exact (Option.some.inj h4').symm
  have hl0 : p.stats.totalCost = 0 := by
    rw [List.length_nil] at l3
    omega
  obtain rfl : l = 0 := by
    rw [hl0, Int.cast_zero, zero_div, zero_div, sub_zero] at l1
    exact abs_nonpos_iff.mp l1
  have hz : numDiv 0 ((([] : List (List Bool)).length : ℕ) : ℚ) = .nan := by simp [numDiv]
  refine ⟨rfl, rfl, ?_, by simp [numDiv], by simp [numDiv], by simp [numDiv, contextSum], rfl⟩
  dsimp only
  rw [eighth h5 (Or.inl rfl) (by norm_num), zero_div]

/-- **C74 (context length).** The printed average context length is the `f64` nearest to the mean, over all bits, of the
number of orders whose context is known. (A bit whose longest known context has `k` bytes counts `k + 1`, a bit without a
context 0.) It is at most 21. -/
theorem C74_context_length (h0 : bytes ≠ []) : ∃ v, r.contextLength = .fin v ∧
    NearestF64 ((contextSum bytes : ℚ) / (8 * bytes.length)) v ∧ 0 ≤ v ∧ v ≤ 21 := by
  obtain ⟨t, p0, fs, p, T, i, D, l, ht, hp, h1, h2, h3, h4, h5, h6, -, -, l1, l2, l3, hfl, hr'⟩ :=
    report_eq e hc hlg hd hd8 bytes h8 hn
  rw [hr] at hr'
  obtain rfl := Option.some.inj hr'
  have hl : 0 < bytes.length := List.length_pos_iff.mpr h0
  have hlq : (1 : ℚ) ≤ bytes.length := by exact_mod_cast hl
  have hs : contextSum bytes ≤ 21 * bytes.flatten.length := by
    unfold contextSum
    refine (sum_bounds_nat _ (k := 20 + 1) _ fun a _ => contextCount_le _ _).trans ?_
    rw [List.length_range]
  rw [hfl] at hs
  have hsq : (contextSum bytes : ℚ) ≤ 21 * (8 * bytes.length) := by exact_mod_cast hs
  have e8 : ((bytes.length * 8 : ℕ) : ℚ) = 8 * bytes.length := by push_cast; ring
  have hpos : (0 : ℚ) < 8 * bytes.length := by linarith
  have hq0 : 0 ≤ (contextSum bytes : ℚ) / (8 * bytes.length) := by positivity
  have hq1 : (contextSum bytes : ℚ) / (8 * bytes.length) ≤ 21 := by rw [div_le_iff₀ hpos]; exact hsq
  obtain ⟨f1, f2⟩ := fl_nearest (q := (contextSum bytes : ℚ) / (8 * bytes.length)) (by
    rw [abs_of_nonneg hq0]
    exact hq1.trans (le_trans (by norm_num) (pow_le_pow_right₀ (show (1 : ℚ) ≤ 2 by norm_num) (show 5 ≤ 1023 by norm_num))))
  refine ⟨_, ?_, f2, rnd_nonneg hq0, ?_⟩
  · dsimp only
    rw [e8]
    unfold numDiv fDiv
    rw [if_neg hpos.ne', if_neg hpos.ne', f1]
    rfl
  · have m := rounded_mono (p := 53) (by norm_num) (-1074) hq1
    have f := rounded_fits (isF64_int (m := 21) (k := 0) (by norm_num) (by norm_num) (by norm_num)).1
    rw [zpow_zero, mul_one] at f
    push_cast at f
    rw [f] at m
    exact m

/-- **C74 (cost by tables).** Eight times the printed total cost computed using lookup tables is the information content of
those bits that have a context, up to 1/1023 bit per bit of the file. -/
theorem C74_lut_cost {E : ℝ} (hE : ChargedContent bytes E) : ∃ v : ℚ, r.lutCost = .fin v ∧ 0 ≤ v ∧
    |8 * (v : ℝ) - E| ≤ 1 / 1023 * (8 * bytes.length) := by
  obtain ⟨t, p0, fs, p, T, i, D, l, ht, hp, h1, h2, h3, h4, h5, h6, -, -, l1, l2, l3, hfl, hr'⟩ :=
    report_eq e hc hlg hd hd8 bytes h8 hn
  rw [hr] at hr'
  obtain rfl := Option.some.inj hr'
  obtain ⟨t', p0', fs', p', ht', hp', h1', rfl⟩ := hE
  rw [ht] at ht'
  obtain rfl := Option.some.inj ht'
  rw [hp] at hp'
  obtain rfl := Option.some.inj hp'
  rw [h1] at h1'
  obtain ⟨rfl, rfl⟩ := Prod.mk.inj (Option.some.inj h1')
  have hcs : (bytes.flatMap byteCalls).length ≤ 2 ^ 40 := by rw [bytes_length bytes h8]; omega
  have h7 := C42_total_cost ht .light (by norm_num) (by norm_num) (by norm_num) hp _ hcs h1
  rw [fed_bytes] at h7
  refine ⟨l, rfl, ?_, ?_⟩
  · have l2' : (0 : ℚ) ≤ p.stats.totalCost := by exact_mod_cast l2
    have := (abs_le.mp l1).1
    linarith
  have l1' : |(l : ℝ) - p.stats.totalCost / 16384| ≤ (p.stats.totalCost : ℝ) / 16384 / 2 ^ 53 := by
    have : ((|l - (p.stats.totalCost : ℚ) / 16384| : ℚ) : ℝ) ≤ (((p.stats.totalCost : ℚ) / 16384 / 2 ^ 53 : ℚ) : ℝ) := by
      exact_mod_cast l1
    push_cast at this
    exact this
  have l3' : (p.stats.totalCost : ℝ) ≤ 47104 * (8 * bytes.length) := by exact_mod_cast l3
  dsimp only at h7
  have hlen : ((((List.range bytes.flatten.length).filter fun i =>
      contextCount 20 (windowed 10000000 (bytes.flatten.take i)) ≠ 0).length : ℕ) : ℝ) ≤ 8 * bytes.length := by
    have := List.length_filter_le (fun i => decide (contextCount 20 (windowed 10000000 (bytes.flatten.take i)) ≠ 0))
      (List.range bytes.flatten.length)
    rw [List.length_range] at this
    have := this.trans hfl.le
    exact_mod_cast this
  generalize ((((List.range bytes.flatten.length).filter fun i =>
      contextCount 20 (windowed 10000000 (bytes.flatten.take i)) ≠ 0).length : ℕ) : ℝ) = k at *
  generalize ((((List.range bytes.flatten.length).filter fun i =>
      contextCount 20 (windowed 10000000 (bytes.flatten.take i)) ≠ 0).map fun i =>
        -Real.logb 2 (chance (fs.getD i 0) (bytes.flatten.getD i false))).sum) = S at *
  generalize (8 * (bytes.length : ℝ)) = N at *
  have l2' : (0 : ℝ) ≤ p.stats.totalCost := by exact_mod_cast l2
  generalize (p.stats.totalCost : ℝ) = C at *
  obtain ⟨x1, x2⟩ := abs_le.mp l1'
  obtain ⟨y1, y2⟩ := abs_le.mp h7
  rw [abs_le]
  norm_num at *
  constructor <;> linarith

/-- **C74 (times).** Durations are printed with a relative error of at most `2^-51`. For a file that is not empty the time
per byte is printed with a relative error of at most `2^-50`, and the bytes per second too, which is infinite if no time has
passed. -/
theorem C74_times : |r.initialization - ((e.initialized - e.start : ℕ) : ℚ) / 1000000000| ≤
      ((e.initialized - e.start : ℕ) : ℚ) / 1000000000 / 2 ^ 51 ∧
    |r.totalDuration - ((e.finished - e.start : ℕ) : ℚ) / 1000000000| ≤
      ((e.finished - e.start : ℕ) : ℚ) / 1000000000 / 2 ^ 51 ∧
    (bytes ≠ [] → e.start < e.finished →
      (∃ v, r.nsPerByte = .fin v ∧ |v - ((e.finished - e.start : ℕ) : ℚ) / bytes.length| ≤
        ((e.finished - e.start : ℕ) : ℚ) / bytes.length / 2 ^ 50) ∧
      (∃ v, r.bytesPerSecond = .fin v ∧ |v - bytes.length / (((e.finished - e.start : ℕ) : ℚ) / 1000000000)| ≤
        bytes.length / (((e.finished - e.start : ℕ) : ℚ) / 1000000000) / 2 ^ 50)) ∧
    (bytes ≠ [] → e.start = e.finished → r.bytesPerSecond = .inf) := by
  obtain ⟨t, p0, fs, p, T, i, D, l, ht, hp, h1, h2, h3, h4, h5, h6, s1, s2, l1, l2, l3, hfl, hr'⟩ :=
    report_eq e hc hlg hd hd8 bytes h8 hn
  rw [hr] at hr'
  obtain rfl := Option.some.inj hr'
  obtain ⟨i', e1, -, -, e3⟩ := seconds_some hc.first hc.firstRange
  rw [s1] at e1
  obtain rfl := Option.some.inj e1
  obtain ⟨D', f1, f0, fz, f3⟩ := seconds_some hc.last hc.lastRange
  rw [s2] at f1
  obtain rfl := Option.some.inj f1
  dsimp only
  refine ⟨e3, f3, ?_, ?_⟩
  · intro h0 hlt
    have hl : 0 < bytes.length := List.length_pos_iff.mpr h0
    have hl1 : (1 : ℚ) ≤ bytes.length := by exact_mod_cast hl
    have hl2 : (bytes.length : ℚ) ≤ 2 ^ 35 := by exact_mod_cast hn
    have hd1 : (1 : ℚ) ≤ ((e.finished - e.start : ℕ) : ℚ) := by exact_mod_cast (by omega : 1 ≤ e.finished - e.start)
    have hd2 : ((e.finished - e.start : ℕ) : ℚ) ≤ 2 ^ 94 := by
      have := hc.lastRange
      exact_mod_cast (by omega : e.finished - e.start ≤ 2 ^ 94)
    generalize ((e.finished - e.start : ℕ) : ℚ) = t0 at *
    generalize (bytes.length : ℚ) = n at *
    obtain ⟨d1, d2⟩ := abs_le.mp f3
    have D1 : (1 : ℚ) / 2 ^ 40 ≤ D := by norm_num at *; linarith
    have D2 : D ≤ 2 ^ 70 := by norm_num at *; linarith
    have hD0 : 0 < D := lt_of_lt_of_le (by positivity) D1
    constructor
    · obtain ⟨v, v1, v2, v3⟩ := div_rel (a := D) (b := n) (le_trans (by norm_num) D1) (D2.trans (by norm_num))
        (le_trans (by norm_num) hl1) (hl2.trans (by norm_num))
      have hX : 0 < t0 / n := by positivity
      have hY : D / n ≤ t0 / n / 1000000000 * (1 + 1 / 2 ^ 51) := by
        rw [div_le_iff₀ (by linarith)]
        have : t0 / n / 1000000000 * (1 + 1 / 2 ^ 51) * n = t0 / 1000000000 * (1 + 1 / 2 ^ 51) := by field_simp
        rw [this]
        linarith
      have hY' : t0 / n / 1000000000 * (1 - 1 / 2 ^ 51) ≤ D / n := by
        rw [le_div_iff₀ (by linarith)]
        have : t0 / n / 1000000000 * (1 - 1 / 2 ^ 51) * n = t0 / 1000000000 * (1 - 1 / 2 ^ 51) := by field_simp
        rw [this]
        linarith
      have hXl : 1 / 2 ^ 35 ≤ t0 / n := by
        rw [le_div_iff₀ (by linarith)]
        norm_num at *
        linarith
      have hXu : t0 / n ≤ 2 ^ 94 := by
        rw [div_le_iff₀ (by linarith)]
        norm_num at *
        linarith
      generalize D / n = Y at *
      generalize t0 / n = X at *
      obtain ⟨w1, w2⟩ := abs_le.mp v3
      obtain ⟨u, u1, -, u3⟩ := fl_rel (q := v * 1000000000) (by norm_num at *; linarith) (by norm_num at *; linarith)
      refine ⟨u, ?_, ?_⟩
      · rw [v1]
        unfold numMul fMul
        dsimp only
        rw [u1]
        rfl
      · obtain ⟨z1, z2⟩ := abs_le.mp u3
        rw [abs_le]
        norm_num at *
        constructor <;> linarith
    · obtain ⟨v, v1, v2, v3⟩ := div_rel (a := n) (b := D) (le_trans (by norm_num) hl1) (hl2.trans (by norm_num))
        (le_trans (by norm_num) D1) (D2.trans (by norm_num))
      refine ⟨v, v1, ?_⟩
      have hX : 0 < n / (t0 / 1000000000) := by positivity
      have ht0 : 0 < t0 / 1000000000 := by positivity
      generalize t0 / 1000000000 = s at *
      have hY : n / D ≤ n / s * (1 + 11 / 10 / 2 ^ 51) := by
        rw [div_le_iff₀ hD0, div_mul_eq_mul_div, div_mul_eq_mul_div, le_div_iff₀ ht0, mul_assoc]
        refine mul_le_mul_of_nonneg_left ?_ (by linarith)
        norm_num at *
        linarith
      have hY' : n / s * (1 - 11 / 10 / 2 ^ 51) ≤ n / D := by
        rw [le_div_iff₀ hD0, div_mul_eq_mul_div, div_mul_eq_mul_div, div_le_iff₀ ht0, mul_assoc]
        refine mul_le_mul_of_nonneg_left ?_ (by linarith)
        norm_num at *
        linarith
      generalize n / D = Y at *
      generalize n / s = X at *
      obtain ⟨w1, w2⟩ := abs_le.mp v3
      rw [abs_le]
      norm_num at *
      constructor <;> linarith
  · intro h0 heq
    have hl : (bytes.length : ℚ) ≠ 0 := by
      have : bytes.length ≠ 0 := fun h => h0 (List.length_eq_zero_iff.mp h)
      exact_mod_cast this
    rw [fz heq.symm]
    unfold numDiv
    rw [if_pos rfl, if_neg hl]

end

/-- platforms that meet the hypotheses exist; on them the program finishes for the file with the two bytes `"ab"`, and panics
without an argument, for another name, and for a file with a read error -/
example : ∃ e : Platform, e.ClockOk ∧ e.start < e.finished ∧ LogWithin e.log2 (1 / 2 ^ 52) ∧
    (let ab := [some [false, true, true, false, false, false, false, true], some [false, true, true, false, false, false, true, false]]
     let fs := fun n => if n = "ab" then some ab else if n = "bad" then some (ab ++ [none]) else none
     (mainRun e ["demixer", "ab"] fs).isSome = true ∧ mainRun e ["demixer"] fs = none ∧ mainRun e ["demixer", "c"] fs = none ∧
       mainRun e ["demixer", "bad"] fs = none) := by
  obtain ⟨lg, hlg⟩ := log_exists
  refine ⟨⟨lg, 1000, 2000, 5000000⟩, ⟨by norm_num, by norm_num, by norm_num, by norm_num⟩, by norm_num, hlg, ?_⟩
  intro ab fs
  have key := fun args => C74_finishes ⟨lg, 1000, 2000, 5000000⟩ (by norm_num) (by norm_num) hlg (by norm_num) (by norm_num) args fs (by
    intro name file h
    simp only [fs] at h
    split_ifs at h <;> obtain rfl := Option.some.inj h <;> simp [ab])
  have no : ∀ {x : Option Report}, ¬ x.isSome = true → x = none := by
    intro x hx
    cases x with
    | none => rfl
    | some _ => exact absurd rfl hx
  refine ⟨(key _).mpr ⟨⟨"ab", ab, rfl, by simp [fs], by simp [ab]⟩, by norm_num, by norm_num⟩, ?_, ?_, ?_⟩
  · refine no fun hx => ?_
    obtain ⟨⟨name, file, h, -⟩, -⟩ := (key _).mp hx
    simp at h
  · refine no fun hx => ?_
    obtain ⟨⟨name, file, h, h', -⟩, -⟩ := (key _).mp hx
    obtain rfl : "c" = name := by simpa using h
    simp [fs] at h'
  · refine no fun hx => ?_
    obtain ⟨⟨name, file, h, h', h''⟩, -⟩ := (key _).mp hx
    obtain rfl : "bad" = name := by simpa using h
    simp only [fs] at h'
    rw [if_neg (by decide), if_pos trivial] at h'
    obtain rfl := Option.some.inj h'
    simp at h''

end Verif.Pred
