import Verif.Float.Print
import Verif.Bin.SigmoidRun
import Verif.Pred.ReportLemmas

/-! # The text printed by the sigmoid benchmark (C85) -/

namespace Verif.Bin

open Verif Verif.Float Verif.Text

/-! ## Model -/

/-- `nanos_per_squash` and `nanos_per_stretch` (`bench_sigmoid.rs:58-71`) from two readings of the clock in nanoseconds;
`duration_since` fails if the clock was set back -/
def nanosPer (start stop : ℕ) : Option ℚ := do
  check (start ≤ stop)
  let a ← intoF64 ((stop - start) / 1000000000 : ℕ)
  let a ← fMul a 1000000000
  let b ← intoF64 ((stop - start) % 1000000000 : ℕ)
  let nanos ← fAdd a b
  let elems ← intoF64 1000
  let loops ← intoF64 10000
  let n ← fMul elems loops
  fDiv nanos n

/-- the text of the whole program (`bench_sigmoid.rs:26-75`); the last four arguments are the readings of the clock before and
after the loops over squash and over stretch -/
def benchText (near : ℚ → ℕ) (depth startSquash endSquash startStretch endStretch : ℕ) : Option (List Char) := do
  let (warmup, sq, st) ← bench depth
  let perSquash ← nanosPer startSquash endSquash
  let perStretch ← nanosPer startStretch endStretch
  some ("warmup (checksum: ".toList ++ dec warmup ++ ")\n".toList ++
    "squash  = ".toList ++ padLeft 5 (fixed near 1 perSquash) ++ "ns (chksum: ".toList ++ dec sq ++ ")\nstretch = ".toList ++
    padLeft 5 (fixed near 1 perStretch) ++ "ns (chksum: ".toList ++ decInt st ++ ")\n".toList)

/-! ## Lemmas -/

theorem fl_rel_zero {q : ℚ} (h1 : q = 0 ∨ 1 ≤ q) (h2 : q ≤ 2 ^ 100) :
    ∃ r, fl q = some r ∧ (q = 0 → r = 0) ∧ |r - q| ≤ q / 2 ^ 53 := by
  rcases h1 with rfl | h1
  · refine ⟨0, ?_, fun _ => rfl, by norm_num⟩
    have := fl_fits (isF64_int (m := 0) (k := 0) (by norm_num) (by norm_num) (by norm_num))
    rw [Int.cast_zero, zero_mul] at this
    exact this
  · obtain ⟨r, e, -, h⟩ := Pred.fl_rel (q := q) (le_trans (by norm_num) h1) (h2.trans (pow_le_pow_right₀ (by norm_num) (by norm_num)))
    exact ⟨r, e, fun h => by linarith, h⟩

theorem nanos_some {s n : ℕ} (h : s ≤ n) (hb : n - s < 2 ^ 64 * 1000000000) : ∃ r, nanosPer s n = some r ∧ 0 ≤ r ∧
    |r - ((n - s : ℕ) : ℚ) / 10000000| ≤ ((n - s : ℕ) : ℚ) / 10000000 / 2 ^ 50 := by
  unfold nanosPer
  rw [check_pos h, ob_some]
  generalize n - s = D at hb
  have hA : D / 1000000000 < 2 ^ 64 := by omega
  have hB : D % 1000000000 < 2 ^ 30 := by omega
  have hsum : (D : ℚ) = 1000000000 * ((D / 1000000000 : ℕ) : ℚ) + ((D % 1000000000 : ℕ) : ℚ) := by
    exact_mod_cast (Nat.div_add_mod D 1000000000).symm
  have hAq : ((D / 1000000000 : ℕ) : ℚ) ≤ 2 ^ 64 := by exact_mod_cast hA.le
  have hBq : ((D % 1000000000 : ℕ) : ℚ) ≤ 2 ^ 30 := by exact_mod_cast hB.le
  generalize D / 1000000000 = A at *
  generalize D % 1000000000 = B at *
  have A01 : (A : ℚ) = 0 ∨ (1 : ℚ) ≤ A := by
    rcases Nat.eq_zero_or_pos A with rfl | h
    · exact .inl (by norm_num)
    · exact .inr (by exact_mod_cast h)
  have B01 : (B : ℚ) = 0 ∨ (1 : ℚ) ≤ B := by
    rcases Nat.eq_zero_or_pos B with rfl | h
    · exact .inl (by norm_num)
    · exact .inr (by exact_mod_cast h)
  have B0 : (0 : ℚ) ≤ B := Nat.cast_nonneg _
  have A0 : (0 : ℚ) ≤ A := Nat.cast_nonneg _
  obtain ⟨a, ea, a0, ra⟩ := fl_rel_zero A01 (by linarith)
  obtain ⟨x1, x2⟩ := abs_le.mp ra
  have ha : a * 1000000000 = 0 ∨ 1 ≤ a * 1000000000 := by
    rcases A01 with h | h
    · left
      rw [a0 h, zero_mul]
    · right
      linarith
  obtain ⟨m, em, m0, rm⟩ := fl_rel_zero ha (by linarith)
  obtain ⟨y1, y2⟩ := abs_le.mp rm
  have hm : m + B = 0 ∨ 1 ≤ m + B := by
    rcases A01 with h | h
    · rw [m0 (by rw [a0 h, zero_mul]), zero_add]
      exact B01
    · right
      linarith
  obtain ⟨n, en, n0, rn⟩ := fl_rel_zero hm (by linarith)
  obtain ⟨z1, z2⟩ := abs_le.mp rn
  have D0 : (D : ℚ) = 0 ∨ 1 ≤ (D : ℚ) := by
    rcases Nat.eq_zero_or_pos D with rfl | h
    · exact .inl (by norm_num)
    · exact .inr (by exact_mod_cast h)
  obtain ⟨r, er, rr⟩ : ∃ r, fl (n / 10000000) = some r ∧ |r - n / 10000000| ≤ n / 10000000 / 2 ^ 53 := by
    rcases D0 with h | h
    · have : n = 0 := n0 (by
        have hA0 : (A : ℚ) = 0 := by linarith
        have hB0 : (B : ℚ) = 0 := by linarith
        rw [m0 (by rw [a0 hA0, zero_mul]), hB0, add_zero])
      obtain ⟨r, e, h1, h2⟩ := fl_rel_zero (q := n / 10000000) (.inl (by rw [this, zero_div])) (by rw [this]; norm_num)
      exact ⟨r, e, h2⟩
    · obtain ⟨r, e, -, h2⟩ := Pred.fl_rel (q := n / 10000000) (by linarith) (by linarith)
      exact ⟨r, e, h2⟩
  obtain ⟨w1, w2⟩ := abs_le.mp rr
  have e1 : intoF64 1000 = some 1000 := by
    have := intoF64_small (z := 1000) (by norm_num)
    simpa using this
  have e2 : intoF64 10000 = some 10000 := by
    have := intoF64_small (z := 10000) (by norm_num)
    simpa using this
  have e3 : fMul 1000 10000 = some 10000000 := by
    have := fl_fits (isF64_int (m := 10000000) (k := 0) (by norm_num) (by norm_num) (by norm_num))
    rw [zpow_zero, mul_one] at this
    unfold fMul
    norm_num at this ⊢
    exact this
  have eb : intoF64 ((B : ℕ) : ℤ) = some (B : ℚ) := by
    have := intoF64_small (z := (B : ℤ)) (by
      rw [abs_of_nonneg (by omega)]
      exact_mod_cast (by omega : B ≤ 2 ^ 53))
    rwa [Int.cast_natCast] at this
  refine ⟨r, ?_, ?_, ?_⟩
  · have ea' : intoF64 ((A : ℕ) : ℤ) = some a := by
      unfold intoF64
      rw [Int.cast_natCast]
      exact ea
    rw [ea', ob_some, show fMul a 1000000000 = some m from em, ob_some, eb, ob_some, show fAdd m B = some n from en, ob_some, e1,
      ob_some, e2, ob_some, e3, ob_some]
    unfold fDiv
    rw [if_neg (by norm_num)]
    exact er
  · linarith
  · rw [abs_le]
    constructor <;> linarith

/-! ## Theorem -/

/-- **C85 (benchmark).** If the clock is not set back, the program prints the checksums of C70 and between them two decimal
numbers: the nanoseconds per call of squash and of stretch, rounded to a tenth. -/
theorem C85_benchmark {near : ℚ → ℕ} (hnear : Text.Nearest near) (depth : ℕ) (hdepth : 6 ≤ depth) {a b c d : ℕ} (hab : a ≤ b)
    (hcd : c ≤ d) (hb : b - a < 2 ^ 64 * 1000000000) (hd : d - c < 2 ^ 64 * 1000000000) :
    ∃ x y : List Char, benchText near depth a b c d = some (
      "warmup (checksum: 10699864371220000)\n".toList ++
      "squash  = ".toList ++ x ++ "ns (chksum: 10699864371220000)\n".toList ++
      "stretch = ".toList ++ y ++ "ns (chksum: -4197659520000)\n".toList) ∧
      (∃ v, numbers x = [v] ∧ |v - ((b - a : ℕ) : ℚ) / 10000000| ≤ ((b - a : ℕ) : ℚ) / 10000000 / 2 ^ 50 + 1 / 20) ∧
      ∃ v, numbers y = [v] ∧ |v - ((d - c : ℕ) : ℚ) / 10000000| ≤ ((d - c : ℕ) : ℚ) / 10000000 / 2 ^ 50 + 1 / 20 := by
  obtain ⟨p, ep, p0, hp⟩ := nanos_some hab hb
  obtain ⟨q, eq, q0, hq⟩ := nanos_some hcd hd
  refine ⟨padLeft 5 (fixed near 1 p), padLeft 5 (fixed near 1 q), ?_, ?_, ?_⟩
  · unfold benchText
    rw [C70_run depth hdepth, ob_some]
    dsimp only
    rw [ep, ob_some, eq, ob_some]
    have h1 : "warmup (checksum: 10699864371220000)\n".toList = "warmup (checksum: ".toList ++ dec 10699864371220000 ++ ")\n".toList := by
      decide +kernel
    have h2 : "ns (chksum: 10699864371220000)\n".toList ++ "stretch = ".toList =
      "ns (chksum: ".toList ++ dec 10699864371220000 ++ ")\nstretch = ".toList := by decide +kernel
    have h3 : "ns (chksum: -4197659520000)\n".toList = "ns (chksum: ".toList ++ decInt (-4197659520000) ++ ")\n".toList := by
      decide +kernel
    rw [h1, h3]
    congr 1
    simp only [List.append_assoc] at h2 ⊢
    have h2' : ∀ z, "ns (chksum: 10699864371220000)\n".toList ++ ("stretch = ".toList ++ z) =
        "ns (chksum: ".toList ++ (dec 10699864371220000 ++ (")\nstretch = ".toList ++ z)) := by
      intro z
      rw [← List.append_assoc, h2]
      simp only [List.append_assoc]
    rw [h2']
  · refine ⟨_, by rw [numbers_pad, numbers_fixed near (by decide)], ?_⟩
    have h1 := fixed_near hnear 1 p0
    have h2 := abs_sub_le ((near (p * 10 ^ 1) : ℚ) / 10 ^ 1) p (((b - a : ℕ) : ℚ) / 10000000)
    norm_num at h1 h2 hp ⊢
    linarith
  · refine ⟨_, by rw [numbers_pad, numbers_fixed near (by decide)], ?_⟩
    have h1 := fixed_near hnear 1 q0
    have h2 := abs_sub_le ((near (q * 10 ^ 1) : ℚ) / 10 ^ 1) q (((d - c : ℕ) : ℚ) / 10000000)
    norm_num at h1 h2 hq ⊢
    linarith

/-- **C85 (clock).** It prints nothing if the clock was set back during one of the loops. -/
theorem C85_clock (near : ℚ → ℕ) (depth : ℕ) {a b c d : ℕ} (h : b < a ∨ d < c) : benchText near depth a b c d = none := by
  unfold benchText
  cases bench depth with
  | none => rfl
  | some x =>
    rw [ob_some]
    obtain ⟨w, q, t⟩ := x
    dsimp only
    have hz : ∀ {s e : ℕ}, e < s → nanosPer s e = none := by
      intro s e h
      unfold nanosPer
      rw [check_neg (by omega)]
      rfl
    rcases h with h | h
    · rw [hz h]
      rfl
    · rw [hz h]
      cases nanosPer a b <;> rfl

/-- the readings 0 and 35 ms, and 1 s and 2 s, meet the hypotheses -/
example : (0 : ℕ) ≤ 35000000 ∧ (1000000000 : ℕ) ≤ 2000000000 ∧ 35000000 - 0 < 2 ^ 64 * 1000000000 := by norm_num

end Verif.Bin
