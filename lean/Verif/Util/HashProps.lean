import Verif.Util.Props
import Mathlib.Tactic.IntervalCases

/-!
# What the context hashes depend on

The tests `all_hashes_use_previous_byte_1`, `two_hashes_use_previous_byte_2` and `one_hash_uses_previous_byte_3`
(`tests/last_bytes_cache.rs:113-172`) sample these facts with random histories; here they hold for all of them.
-/

namespace Verif.Util

open Verif Verif.Bits

/-- eight bits of a byte, the highest first -/
def byteBits (b : Nat) : List Bool := [7, 6, 5, 4, 3, 2, 1, 0].map b.testBit

/-- the three hashes after complete bytes, before the first bit of the next one -/
def hashesAfter (bytes : List (List Bool)) : Option (Nat × Nat × Nat) := do
  let s ← lbRun lbNew (partCalls bytes [])
  let a ← lbHash01 s
  let b ← lbHash02 s
  let c ← lbHash03 s
  some (a, b, c)

theorem hashesAfter_eq (bytes : List (List Bool)) (h8 : ∀ b ∈ bytes, b.length = 8) :
    hashesAfter bytes = some (256 + prevByte 1 bytes, fnvSpec [prevByte 2 bytes, prevByte 1 bytes, 1],
      fnvSpec [prevByte 3 bytes, prevByte 2 bytes, prevByte 1 bytes, 1]) := by
  obtain ⟨s, h1, -, -, -, -, h2, h3, h4⟩ := C22_history bytes [] h8 (by decide)
  unfold hashesAfter
  rw [h1, ob_some, h2, ob_some, h3, ob_some, h4, ob_some, List.length_nil, Nat.pow_zero, Nat.mul_one]
  rfl

theorem prevByte_lt (k : Nat) (bytes : List (List Bool)) (h8 : ∀ b ∈ bytes, b.length = 8) : prevByte k bytes < 256 := by
  unfold prevByte
  split
  · rename_i h
    by_cases hk : bytes.length - k < bytes.length
    · have e : bytes.getD (bytes.length - k) [] = bytes[bytes.length - k] := by
        rw [List.getD_eq_getElem?_getD, List.getElem?_eq_getElem hk, Option.getD_some]
      have := val_lt (bytes.getD (bytes.length - k) [])
      rw [e] at this ⊢
      rw [h8 _ (List.getElem_mem hk)] at this
      exact this
    · rw [List.getD_eq_getElem?_getD, List.getElem?_eq_none (by omega)]
      decide
  · decide

theorem prevByte_append1 (bytes : List (List Bool)) (b : List Bool) :
    prevByte 1 (bytes ++ [b]) = val b ∧ prevByte 2 (bytes ++ [b]) = prevByte 1 bytes ∧
      prevByte 3 (bytes ++ [b]) = prevByte 2 bytes := by
  have key : ∀ k, 1 ≤ k → prevByte (k + 1) (bytes ++ [b]) = prevByte k bytes := by
    intro k hk
    unfold prevByte
    rw [List.length_append, List.length_singleton]
    by_cases h : k ≤ bytes.length
    · rw [if_pos (by omega), if_pos h, show bytes.length + 1 - (k + 1) = bytes.length - k by omega,
        List.getD_eq_getElem?_getD, List.getD_eq_getElem?_getD, List.getElem?_append_left (by omega)]
    · rw [if_neg (by omega), if_neg h]
  refine ⟨?_, key 1 le_rfl, key 2 (by norm_num)⟩
  unfold prevByte
  rw [List.length_append, List.length_singleton, if_pos (by omega), Nat.add_sub_cancel, List.getD_eq_getElem?_getD,
    List.getElem?_append_right le_rfl, Nat.sub_self]
  rfl

/-- the order 2 hash separates a last byte 0 from a last byte 1 -/
def sep2 (x : Nat) : Bool := fnvSpec [x, 0, 1] != fnvSpec [x, 1, 1]

/-- the order 3 hash separates a last byte 0 from a last byte 1 -/
def sep3 (x : Nat) : Bool := (List.range 256).all fun y => fnvSpec [x, y, 0, 1] != fnvSpec [x, y, 1, 1]

/-- the order 3 hash separates a second last byte 0 from 1 in front of `0x34` -/
def sep32 (x : Nat) : Bool := fnvSpec [x, 0, 0x34, 1] != fnvSpec [x, 1, 0x34, 1]

/-- the checks for sixteen bytes; the kernel evaluates one block at a time, which needs less memory -/
def sepBlock (k : Nat) : Bool := (List.range 16).all fun i => sep2 (16 * k + i) && sep3 (16 * k + i) && sep32 (16 * k + i)

theorem sep_0 : sepBlock 0 = true := by decide +kernel
theorem sep_1 : sepBlock 1 = true := by decide +kernel
theorem sep_2 : sepBlock 2 = true := by decide +kernel
theorem sep_3 : sepBlock 3 = true := by decide +kernel
theorem sep_4 : sepBlock 4 = true := by decide +kernel
theorem sep_5 : sepBlock 5 = true := by decide +kernel
theorem sep_6 : sepBlock 6 = true := by decide +kernel
theorem sep_7 : sepBlock 7 = true := by decide +kernel
theorem sep_8 : sepBlock 8 = true := by decide +kernel
theorem sep_9 : sepBlock 9 = true := by decide +kernel
theorem sep_10 : sepBlock 10 = true := by decide +kernel
theorem sep_11 : sepBlock 11 = true := by decide +kernel
theorem sep_12 : sepBlock 12 = true := by decide +kernel
theorem sep_13 : sepBlock 13 = true := by decide +kernel
theorem sep_14 : sepBlock 14 = true := by decide +kernel
theorem sep_15 : sepBlock 15 = true := by decide +kernel

theorem sep_blocks : ∀ k < 16, sepBlock k = true := by
  intro k hk
  interval_cases k
  · exact sep_0
  · exact sep_1
  · exact sep_2
  · exact sep_3
  · exact sep_4
  · exact sep_5
  · exact sep_6
  · exact sep_7
  · exact sep_8
  · exact sep_9
  · exact sep_10
  · exact sep_11
  · exact sep_12
  · exact sep_13
  · exact sep_14
  · exact sep_15

theorem sep_at {x : Nat} (hx : x < 256) : sep2 x = true ∧ sep3 x = true ∧ sep32 x = true := by
  have := List.all_eq_true.mp (sep_blocks (x / 16) (by omega)) (x % 16) (List.mem_range.mpr (Nat.mod_lt _ (by decide)))
  rw [Nat.div_add_mod] at this
  simp only [Bool.and_eq_true] at this
  exact ⟨this.1.1, this.1.2, this.2⟩

/-- **C23 (which bytes the hashes use).** After any history: a further byte 0 or 1 gives different hashes in all three cases;
bytes `0, 0x34` and `1, 0x34` give the same first hash and different second and third ones; bytes `0, 0x67, 0x34` and
`1, 0x67, 0x34` give the same first two hashes and different third ones. -/
theorem C23_uses_bytes (bytes : List (List Bool)) (h8 : ∀ b ∈ bytes, b.length = 8) :
    (∃ a b c a' b' c', hashesAfter (bytes ++ [byteBits 0]) = some (a, b, c) ∧
      hashesAfter (bytes ++ [byteBits 1]) = some (a', b', c') ∧ a ≠ a' ∧ b ≠ b' ∧ c ≠ c') ∧
    (∃ a b c b' c', hashesAfter (bytes ++ [byteBits 0] ++ [byteBits 0x34]) = some (a, b, c) ∧
      hashesAfter (bytes ++ [byteBits 1] ++ [byteBits 0x34]) = some (a, b', c') ∧ b ≠ b' ∧ c ≠ c') ∧
    (∃ a b c c', hashesAfter (bytes ++ [byteBits 0] ++ [byteBits 0x67] ++ [byteBits 0x34]) = some (a, b, c) ∧
      hashesAfter (bytes ++ [byteBits 1] ++ [byteBits 0x67] ++ [byteBits 0x34]) = some (a, b, c') ∧ c ≠ c') := by
  have hx := prevByte_lt 1 bytes h8
  have hy := prevByte_lt 2 bytes h8
  have e8 : ∀ n, (byteBits n).length = 8 := fun _ => rfl
  have a8 : ∀ (l : List (List Bool)) n, (∀ b ∈ l, b.length = 8) → ∀ b ∈ l ++ [byteBits n], b.length = 8 := by
    intro l n hl b hb
    rcases List.mem_append.mp hb with h | h
    · exact hl b h
    · rw [List.mem_singleton.mp h]; exact e8 n
  have v0 : val (byteBits 0) = 0 := by decide
  have v1 : val (byteBits 1) = 1 := by decide
  have v3 : val (byteBits 0x34) = 0x34 := by decide
  have v6 : val (byteBits 0x67) = 0x67 := by decide
  have p := fun l n => prevByte_append1 l (byteBits n)
  have hs := sep_at hx
  have hs3 : ∀ y < 256, fnvSpec [y, prevByte 1 bytes, 0, 1] ≠ fnvSpec [y, prevByte 1 bytes, 1, 1] := by
    intro y hy
    have := List.all_eq_true.mp (sep_at hy).2.1 _ (List.mem_range.mpr hx)
    exact bne_iff_ne.mp this
  refine ⟨?_, ?_, ?_⟩
  · rw [hashesAfter_eq _ (a8 _ _ h8), hashesAfter_eq _ (a8 _ _ h8)]
    simp only [(p _ _).1, (p _ _).2.1, (p _ _).2.2, v0, v1]
    exact ⟨_, _, _, _, _, _, rfl, rfl, by decide, bne_iff_ne.mp hs.1, hs3 _ hy⟩
  · rw [hashesAfter_eq _ (a8 _ _ (a8 _ _ h8)), hashesAfter_eq _ (a8 _ _ (a8 _ _ h8))]
    simp only [(p _ _).1, (p _ _).2.1, (p _ _).2.2, v0, v1, v3]
    exact ⟨_, _, _, _, _, rfl, rfl, by decide +kernel, bne_iff_ne.mp hs.2.2⟩
  · rw [hashesAfter_eq _ (a8 _ _ (a8 _ _ (a8 _ _ h8))), hashesAfter_eq _ (a8 _ _ (a8 _ _ (a8 _ _ h8)))]
    simp only [(p _ _).1, (p _ _).2.1, (p _ _).2.2, v0, v1, v3, v6]
    exact ⟨_, _, _, _, rfl, rfl, by decide +kernel⟩

/-- **C23 (what the hashes ignore).** The first hash depends on the last byte only, the second on the last two, the third on
the last three, all of them also on the unfinished bits. -/
theorem C23_depends (bytes bytes' : List (List Bool)) (ps : List Bool) (h8 : ∀ b ∈ bytes, b.length = 8)
    (h8' : ∀ b ∈ bytes', b.length = 8) (hp : ps.length < 8) :
    ∃ s s', lbRun lbNew (partCalls bytes ps) = some s ∧ lbRun lbNew (partCalls bytes' ps) = some s' ∧
      (prevByte 1 bytes = prevByte 1 bytes' → lbHash01 s = lbHash01 s' ∧
        (prevByte 2 bytes = prevByte 2 bytes' → lbHash02 s = lbHash02 s' ∧
          (prevByte 3 bytes = prevByte 3 bytes' → lbHash03 s = lbHash03 s'))) := by
  obtain ⟨s, h1, -, -, -, -, h2, h3, h4⟩ := C22_history bytes ps h8 hp
  obtain ⟨s', h1', -, -, -, -, h2', h3', h4'⟩ := C22_history bytes' ps h8' hp
  refine ⟨s, s', h1, h1', fun e1 => ⟨by rw [h2, h2', e1], fun e2 => ⟨by rw [h3, h3', e1, e2], fun e3 => ?_⟩⟩⟩
  rw [h4, h4', e1, e2, e3]

/-- **C23 (limits).** The second and third hash are not injective, even for equal earlier bytes: the last bytes 65 and 166
after a 2 have the same second hash, and the last bytes 55 and 176 after 2 and 0 have the same third hash. -/
theorem C23_collides (bytes : List (List Bool)) (h8 : ∀ b ∈ bytes, b.length = 8) :
    (∃ a b c a' c', hashesAfter (bytes ++ [byteBits 2] ++ [byteBits 65]) = some (a, b, c) ∧
      hashesAfter (bytes ++ [byteBits 2] ++ [byteBits 166]) = some (a', b, c') ∧ a ≠ a') ∧
    (∃ a b c a' b', hashesAfter (bytes ++ [byteBits 2] ++ [byteBits 0] ++ [byteBits 55]) = some (a, b, c) ∧
      hashesAfter (bytes ++ [byteBits 2] ++ [byteBits 0] ++ [byteBits 176]) = some (a', b', c) ∧ a ≠ a') := by
  have a8 : ∀ (l : List (List Bool)) n, (∀ b ∈ l, b.length = 8) → ∀ b ∈ l ++ [byteBits n], b.length = 8 := by
    intro l n hl b hb
    rcases List.mem_append.mp hb with h | h
    · exact hl b h
    · rw [List.mem_singleton.mp h]; rfl
  have p := fun l n => prevByte_append1 l (byteBits n)
  refine ⟨?_, ?_⟩
  · rw [hashesAfter_eq _ (a8 _ _ (a8 _ _ h8)), hashesAfter_eq _ (a8 _ _ (a8 _ _ h8))]
    simp only [(p _ _).1, (p _ _).2.1, (p _ _).2.2]
    rw [show fnvSpec [val (byteBits 2), val (byteBits 65), 1] = fnvSpec [val (byteBits 2), val (byteBits 166), 1] by decide +kernel]
    exact ⟨256 + val (byteBits 65), _, _, 256 + val (byteBits 166), _, rfl, rfl, by decide +kernel⟩
  · rw [hashesAfter_eq _ (a8 _ _ (a8 _ _ (a8 _ _ h8))), hashesAfter_eq _ (a8 _ _ (a8 _ _ (a8 _ _ h8)))]
    simp only [(p _ _).1, (p _ _).2.1, (p _ _).2.2]
    rw [show fnvSpec [val (byteBits 2), val (byteBits 0), val (byteBits 55), 1] =
      fnvSpec [val (byteBits 2), val (byteBits 0), val (byteBits 176), 1] by decide +kernel]
    exact ⟨256 + val (byteBits 55), _, _, 256 + val (byteBits 176), _, rfl, rfl, by decide +kernel⟩

/-- the last byte 0 or 1 after the letters a, b -/
example : ∃ a b c a' b' c', hashesAfter [byteBits 97, byteBits 98, byteBits 0] = some (a, b, c) ∧
    hashesAfter [byteBits 97, byteBits 98, byteBits 1] = some (a', b', c') ∧ a ≠ a' ∧ b ≠ b' ∧ c ≠ c' :=
  (C23_uses_bytes [byteBits 97, byteBits 98] (by decide)).1

end Verif.Util
