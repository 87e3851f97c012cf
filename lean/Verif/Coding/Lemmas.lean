import Verif.Coding.Model
import Verif.Coding.Spec
import Mathlib.Tactic.Ring
import Mathlib.Tactic.Linarith
import Mathlib.Data.List.Induction

/-! # Helper lemmas: the encoder refines the exact interval coder -/

namespace Verif.Coding

open Verif

/-- One event on the exact interval. -/
def Iv.event (iv : Iv) : Event → Iv
  | .bit p v => iv.norm.select (split iv.norm.range p) v
  | .rare v => iv.norm.select (iv.norm.range - 1) v

/-- A sequence of events on the exact interval. -/
def Iv.events (iv : Iv) : List Event → Iv
  | [] => iv
  | ev :: evs => (iv.event ev).events evs

theorem val_append_singleton (l : List Nat) (b : Nat) : val (l ++ [b]) = val l * 256 + b := by
  simp [val]

theorem val_append (l m : List Nat) : val (l ++ m) = val l * 256 ^ m.length + val m := by
  induction m using List.reverseRecOn with
  | nil => simp [val]
  | append_singleton m b ih =>
    rw [← List.append_assoc, val_append_singleton, ih, val_append_singleton]
    simp [pow_succ]; ring

theorem val_replicate_zero (r : Nat) : val (List.replicate r 0) = 0 := by
  induction r with
  | zero => rfl
  | succ r ih => rw [List.replicate_succ', val_append_singleton, ih]

theorem val_replicate_ff (r : Nat) : val (List.replicate r 255) + 1 = 256 ^ r := by
  induction r with
  | zero => rfl
  | succ r ih => rw [List.replicate_succ', val_append_singleton, pow_succ, ← ih]; ring

theorem val_carry (l : List Nat) (b r : Nat) :
    val (l ++ [b + 1] ++ List.replicate r 0) = val (l ++ [b] ++ List.replicate r 255) + 1 := by
  rw [val_append, val_append _ (List.replicate r 255), val_replicate_zero,
    val_append_singleton, val_append_singleton]
  have := val_replicate_ff r
  simp only [List.length_replicate]
  rw [← this]; ring

/-- Digits that have left the buffer: written bytes, the delayed byte, the delayed run. -/
def Encoder.pend (e : Encoder) : List Nat :=
  e.out ++ (if e.delay then [e.last] else []) ++ List.replicate e.run.toNat 255

/-- Pending carry into the delayed digits. -/
def Encoder.c (e : Encoder) : Nat := if e.carry && e.delay then 1 else 0

/-- The encoder state represents an exact interval. -/
structure Rep (e : Encoder) (iv : Iv) : Prop where
  hb : 0 ≤ e.buffer ∧ e.buffer < 2 ^ 31
  hr : e.range = iv.range
  hr1 : 1 ≤ iv.range ∧ iv.range < 2 ^ 31
  hrun : 0 ≤ e.run
  hlow : (iv.low : Int) = ((val e.pend + e.c : Nat) : Int) * 2 ^ 31 + e.buffer
  hk : e.pend.length = iv.k
  hd : e.delay = false → e.out = [] ∧ e.run = 0 ∧ e.carry = true
  hlast : e.last < 256
  hcarry : e.carry = true → e.buffer + e.range ≤ 2 ^ 31 ∧ (e.delay = true → e.last < 255)
  h255 : e.carry = false → e.last = 255 → e.buffer + e.range ≤ 2 ^ 31
  hout : ∀ b ∈ e.out, b < 256

theorem rep_new : Rep Encoder.new Iv.init := by
  constructor <;> simp [Encoder.new, Iv.init, Encoder.pend, val, Encoder.c]

/-- What `output_byte` needs. -/
structure OutOk (e : Encoder) : Prop where
  hrun : 0 ≤ e.run
  hd : e.delay = false → e.out = [] ∧ e.run = 0 ∧ e.carry = true
  hlast : e.last < 256
  hcl : e.carry = true → e.delay = true → e.last < 255
  hout : ∀ b ∈ e.out, b < 256

theorem Rep.outOk {e iv} (h : Rep e iv) : OutOk e :=
  ⟨h.hrun, h.hd, h.hlast, fun hc => (h.hcarry hc).2, h.hout⟩

theorem outputByte_run (e : Encoder) (o : Int) (h : OutOk e) (ho : 0 ≤ o ∧ o ≤ 255)
    (hlen : o = 255 → e.carry = false → e.run < 2 ^ 31 - 1) :
    ∃ e', e.outputByte o = some e' ∧ OutOk e' ∧ e'.buffer = e.buffer ∧ e'.range = e.range ∧
      e'.delay = true ∧ e'.carry = false ∧
      (val e'.pend : Int) = (val e.pend + e.c : Nat) * 256 + o ∧
      e'.pend.length = e.pend.length + 1 ∧
      (e'.last = 255 → o = 255 ∧ (e.carry = true ∨ (e.carry = false ∧ e.last = 255))) ∧
      (o ≠ 255 → e'.run = 0) := by
  obtain ⟨o, rfl⟩ := Int.eq_ofNat_of_zero_le ho.1
  have ho' : o ≤ 255 := by exact_mod_cast ho.2
  obtain ⟨hrun, hd, hlast, hcl, hout⟩ := h
  unfold Encoder.outputByte
  simp only [check_pos ho, Int.ofNat_eq_natCast, Int.toNat_natCast, Option.bind_eq_bind,
    Option.bind_some]
  by_cases hcase : o ≠ 255 ∨ e.carry = true
  · rw [if_pos hcase]
    cases hdel : e.delay
    · obtain ⟨h1, h2, h3⟩ := hd hdel
      refine ⟨_, rfl, ?_, rfl, rfl, rfl, rfl, ?_, ?_, ?_, fun _ => by simp only; omega⟩
      · constructor <;> simp_all
        omega
      · simp [Encoder.pend, h1, h2, hdel, Encoder.c, val]
      · simp [Encoder.pend, h1, h2, hdel]
      · simp only; intro h; subst h; exact ⟨rfl, Or.inl h3⟩
    · cases hcar : e.carry
      · have hu : u8 (e.last + 0) = some e.last := by
          rw [Nat.add_zero]; exact u8_eq hlast
        have hr0 : min e.run 0 = 0 := by omega
        simp only [Bool.false_eq_true, if_false, if_true, hu, Option.bind_some]
        refine ⟨_, rfl, ?_, rfl, rfl, rfl, rfl, ?_, ?_, ?_, fun _ => by simp only; omega⟩
        · constructor <;> simp_all
          · omega
          · rintro b (hb | hb | hb)
            · exact hout b hb
            · omega
            · omega
        · simp only [Encoder.pend, hdel, hr0, if_true, Int.toNat_zero, List.replicate_zero,
            List.append_nil, Encoder.c, hcar, val_append_singleton]
          push_cast; simp
        · simp only [Encoder.pend, hdel, hr0]
          simp; omega
        · simp only; intro h; subst h; simp_all
      · have hl : e.last < 255 := hcl hcar hdel
        have hu : u8 (e.last + 1) = some (e.last + 1) := u8_eq (by omega)
        have hr0 : min e.run 0 = 0 := by omega
        simp only [if_true, hu, Option.bind_some]
        refine ⟨_, rfl, ?_, rfl, rfl, rfl, rfl, ?_, ?_, ?_, fun _ => by simp only; omega⟩
        · constructor <;> simp_all
          · omega
          · rintro b (hb | hb | hb)
            · exact hout b hb
            · omega
            · omega
        · simp only [Encoder.pend, hdel, hr0, if_true, Int.toNat_zero, List.replicate_zero,
            List.append_nil, Encoder.c, hcar, val_append_singleton, val_carry]
          push_cast; simp
        · simp only [Encoder.pend, hdel, hr0]
          simp; omega
        · simp only; intro h; subst h; simp_all
  · rw [if_neg hcase]
    simp only [not_or, not_not, Bool.not_eq_true] at hcase
    obtain ⟨rfl, hcar⟩ := hcase
    have hdel : e.delay = true := by
      cases hh : e.delay
      · have := (hd hh).2.2; simp_all
      · rfl
    have hrl := hlen rfl hcar
    have hi : i32 (e.run + 1) = some (e.run + 1) := i32_eq (by omega)
    simp only [hi, Option.bind_some]
    have hrn : (e.run + 1).toNat = e.run.toNat + 1 := by omega
    refine ⟨_, rfl, ?_, rfl, rfl, hdel, hcar, ?_, ?_, ?_, fun h => absurd rfl h⟩
    · constructor <;> simp_all
      omega
    · simp only [Encoder.pend, hdel, hrn, List.replicate_succ', ← List.append_assoc,
        val_append_singleton, Encoder.c, hcar]
      push_cast; simp
    · simp only [Encoder.pend, hrn]; simp; omega
    · intro h; exact ⟨rfl, Or.inr ⟨hcar, h⟩⟩

theorem outputByte_spec (e : Encoder) (o : Int) (h : OutOk e) (ho : 0 ≤ o ∧ o ≤ 255)
    (hlen : e.pend.length < 2 ^ 31 - 1) :
    ∃ e', e.outputByte o = some e' ∧ OutOk e' ∧ e'.buffer = e.buffer ∧ e'.range = e.range ∧
      e'.delay = true ∧ e'.carry = false ∧
      (val e'.pend : Int) = (val e.pend + e.c : Nat) * 256 + o ∧
      e'.pend.length = e.pend.length + 1 ∧
      (e'.last = 255 → o = 255 ∧ (e.carry = true ∨ (e.carry = false ∧ e.last = 255))) ∧
      (o ≠ 255 → e'.run = 0) :=
  outputByte_run e o h ho fun _ _ => by
    simp only [Encoder.pend, List.length_append, List.length_replicate] at hlen; omega

/-- One round of the normalisation loop, with room in the counter of pending bytes. -/
theorem rep_shift_run {e : Encoder} {iv : Iv} (h : Rep e iv) (hlt : iv.range < 2 ^ 23)
    (hk : e.buffer / 2 ^ 23 = 255 → e.carry = false → e.run < 2 ^ 31 - 1) :
    ∃ e', e.outputByte (e.buffer / 2 ^ 23) = some e' ∧
      Rep { e' with buffer := wrapI32 (e'.buffer * 2 ^ 8) % 2 ^ 31,
                    range := wrapI32 (e'.range * 2 ^ 8) } (iv.scale 1) := by
  have hb := h.hb
  obtain ⟨e', he, ok, h1, h2, h3, h4, h5, h6, h7, h8⟩ :=
    outputByte_run e (e.buffer / 2 ^ 23) h.outOk (by omega) hk
  refine ⟨e', he, ?_⟩
  have hr := h.hr
  have hr1 := h.hr1
  have hw : wrapI32 (e'.buffer * 2 ^ 8) % 2 ^ 31 = (e.buffer % 2 ^ 23) * 2 ^ 8 := by
    unfold wrapI32; rw [h1]; omega
  have hw2 : wrapI32 (e'.range * 2 ^ 8) = e.range * 2 ^ 8 := by
    rw [h2]; exact wrapI32_eq (by omega)
  rw [hw, hw2]
  constructor
  · simp only; omega
  · simp only [Iv.scale, hr]; push_cast; ring
  · simp only [Iv.scale]; omega
  · exact ok.hrun
  · have hp : ({ e' with buffer := e.buffer % 2 ^ 23 * 2 ^ 8, range := e.range * 2 ^ 8 } :
      Encoder).pend = e'.pend := rfl
    have hc : ({ e' with buffer := e.buffer % 2 ^ 23 * 2 ^ 8, range := e.range * 2 ^ 8 } :
      Encoder).c = 0 := by simp [Encoder.c, h4]
    rw [hp, hc]
    simp only [Iv.scale, pow_one]
    have := h.hlow
    push_cast at *
    rw [this, add_zero, h5]
    omega
  · show e'.pend.length = _
    rw [h6, h.hk]; rfl
  · intro hd; simp only at hd; rw [h3] at hd; cases hd
  · exact ok.hlast
  · intro hc; simp only at hc; rw [h4] at hc; cases hc
  · intro _ hl
    obtain ⟨ho, hh⟩ := h7 hl
    have hs : e.buffer + e.range ≤ 2 ^ 31 := by
      rcases hh with hh | ⟨hh, hh'⟩
      · exact (h.hcarry hh).1
      · exact h.h255 hh hh'
    simp only; omega
  · exact ok.hout

/-- One round of the normalisation loop. -/
theorem rep_shift {e : Encoder} {iv : Iv} (h : Rep e iv) (hlt : iv.range < 2 ^ 23)
    (hk : iv.k < 2 ^ 31 - 1) :
    ∃ e', e.outputByte (e.buffer / 2 ^ 23) = some e' ∧
      Rep { e' with buffer := wrapI32 (e'.buffer * 2 ^ 8) % 2 ^ 31,
                    range := wrapI32 (e'.range * 2 ^ 8) } (iv.scale 1) :=
  rep_shift_run h hlt fun _ _ => by
    rw [← h.hk] at hk
    simp only [Encoder.pend, List.length_append, List.length_replicate] at hk; omega

theorem Iv.scale_scale (iv : Iv) (a b : Nat) : (iv.scale a).scale b = iv.scale (a + b) := by
  simp [Iv.scale, pow_add, Nat.mul_assoc, Nat.add_assoc]

theorem shifts_le (r : Nat) : shifts r ≤ 3 := by unfold shifts; split_ifs <;> omega

theorem shifts_spec {r : Nat} (h : 1 ≤ r ∧ r < 2 ^ 31) :
    2 ^ 23 ≤ r * 256 ^ shifts r ∧ r * 256 ^ shifts r < 2 ^ 31 := by
  unfold shifts
  split_ifs <;> norm_num at * <;> omega

theorem shifts_succ {r : Nat} (h : 1 ≤ r) (hlt : r < 2 ^ 23) :
    shifts r = shifts (r * 256) + 1 := by
  unfold shifts
  split_ifs <;> omega

theorem rep_loop : ∀ (fuel : Nat) {e : Encoder} {iv : Iv}, Rep e iv →
    shifts iv.range < fuel → iv.k + shifts iv.range < 2 ^ 31 →
    ∃ e', Encoder.normalizeLoop fuel e = some e' ∧ Rep e' iv.norm
  | 0, _, _, _, hf, _ => absurd hf (Nat.not_lt_zero _)
  | fuel + 1, e, iv, h, hf, hk => by
    unfold Encoder.normalizeLoop
    have hr := h.hr
    by_cases hlt : iv.range < 2 ^ 23
    · rw [if_pos (by omega)]
      have hs := shifts_succ h.hr1.1 hlt
      obtain ⟨e', he, hrep⟩ := rep_shift h hlt (by omega)
      simp only [he, Option.bind_eq_bind, Option.bind_some]
      have hsr : (iv.scale 1).range = iv.range * 256 := by simp [Iv.scale]
      have hsk : (iv.scale 1).k = iv.k + 1 := rfl
      obtain ⟨e'', he'', hrep''⟩ := rep_loop fuel hrep (by rw [hsr]; omega) (by rw [hsr, hsk]; omega)
      refine ⟨e'', he'', ?_⟩
      have : iv.norm = (iv.scale 1).norm := by
        rw [Iv.norm, Iv.norm, Iv.scale_scale, hsr, hs, Nat.add_comm]
      rw [this]; exact hrep''
    · rw [if_neg (by omega)]
      refine ⟨e, rfl, ?_⟩
      have : iv.norm = iv := by
        have hs : shifts iv.range = 0 := by unfold shifts; rw [if_pos (Nat.le_of_not_lt hlt)]
        simp [Iv.norm, hs, Iv.scale]
      rw [this]; exact h

theorem rep_normalize {e : Encoder} {iv : Iv} (h : Rep e iv)
    (hk : iv.norm.k < 2 ^ 31) :
    ∃ e', e.normalize = some e' ∧ Rep e' iv.norm := by
  unfold Encoder.normalize
  have := h.hr; have := h.hr1
  rw [check_pos (by omega)]
  exact rep_loop 4 h (by have := shifts_le iv.range; omega) hk

theorem norm_range {iv : Iv} (h : 1 ≤ iv.range ∧ iv.range < 2 ^ 31) :
    2 ^ 23 ≤ iv.norm.range ∧ iv.norm.range < 2 ^ 31 := shifts_spec h

theorem split_pos {r p : Nat} (hr : 2 ^ 23 ≤ r) (hp : 1 ≤ p ∧ p < 2 ^ 23) :
    1 ≤ split r p ∧ split r p < r := by
  unfold split
  constructor
  · rw [Nat.le_div_iff_mul_le (by norm_num)]; nlinarith
  · rw [Nat.div_lt_iff_lt_mul (by norm_num)]; nlinarith

/-- Selecting the upper part. -/
theorem rep_add {e : Encoder} {iv : Iv} (h : Rep e iv) {m : Nat} (hm : m < iv.range) :
    Rep { e.addWithCarry m with range := (iv.range - m : Nat) } (iv.select m true) := by
  have hb := h.hb; have hr := h.hr; have hr1 := h.hr1
  unfold Encoder.addWithCarry
  by_cases hov : e.buffer + m < 2 ^ 31
  · have hw : wrapI32 (e.buffer + m) = e.buffer + m := wrapI32_eq (by omega)
    simp only [hw]
    rw [if_neg (by omega)]
    constructor
    · simp only; omega
    · simp [Iv.select]
    · simp only [Iv.select, if_true]; omega
    · exact h.hrun
    · have h0 := h.hlow
      simp only [Encoder.pend, Encoder.c, Iv.select, if_true] at *
      push_cast at *; omega
    · exact h.hk
    · exact h.hd
    · exact h.hlast
    · intro hc
      obtain ⟨h1, h2⟩ := h.hcarry hc
      refine ⟨?_, h2⟩
      simp only; omega
    · intro hc hl
      have := h.h255 hc hl
      simp only; omega
    · exact h.hout
  · have hw : wrapI32 (e.buffer + m) = e.buffer + m - 2 ^ 32 := by unfold wrapI32; omega
    simp only [hw]
    rw [if_pos (by omega)]
    have hm2 : (e.buffer + m - 2 ^ 32) % 2 ^ 31 = e.buffer + m - 2 ^ 31 := by omega
    simp only [hm2]
    have hc : e.carry = false := by
      cases hh : e.carry
      · rfl
      · have := (h.hcarry hh).1; omega
    have hd : e.delay = true := by
      cases hh : e.delay
      · have := (h.hd hh).2.2; simp_all
      · rfl
    have hl : e.last ≠ 255 := fun hh => by have := h.h255 hc hh; omega
    have hl2 := h.hlast
    constructor
    · simp only; omega
    · simp [Iv.select]
    · simp only [Iv.select, if_true]; omega
    · exact h.hrun
    · have h0 := h.hlow
      have hc0 : e.c = 0 := by simp [Encoder.c, hc]
      rw [hc0] at h0
      simp only [Encoder.pend, Encoder.c, Iv.select, if_true, hd, Bool.true_and] at *
      push_cast at *; omega
    · exact h.hk
    · intro hh; simp only at hh; rw [hd] at hh; cases hh
    · exact h.hlast
    · intro _
      refine ⟨?_, fun _ => ?_⟩
      · simp only; omega
      · simp only; omega
    · intro hh; simp at hh
    · exact h.hout

/-- Selecting the lower part. -/
theorem rep_low {e : Encoder} {iv : Iv} (h : Rep e iv) {m : Nat} (hm : 1 ≤ m ∧ m ≤ iv.range) :
    Rep { e with range := m } (iv.select m false) := by
  have hr := h.hr; have hr1 := h.hr1
  constructor
  · exact h.hb
  · simp [Iv.select]
  · simp only [Iv.select, Bool.false_eq_true, if_false]; omega
  · exact h.hrun
  · exact h.hlow
  · exact h.hk
  · exact h.hd
  · exact h.hlast
  · intro hc
    obtain ⟨h1, h2⟩ := h.hcarry hc
    exact ⟨by simp only; omega, h2⟩
  · intro hc hl
    have := h.h255 hc hl
    simp only; omega
  · exact h.hout

theorem addWithCarry_range (e : Encoder) (m : Int) : (e.addWithCarry m).range = e.range := by
  unfold Encoder.addWithCarry; simp only; split <;> rfl

theorem helper_eq {r p : Nat} (hr : r < 2 ^ 31) (hp : p < 2 ^ 23) :
    i64 ((r : Int) * p) = some ((r : Int) * p) ∧
      wrapI32 ((r : Int) * p / 2 ^ 23) = (split r p : Int) := by
  have h1 : r * p < 2 ^ 54 := by
    calc r * p ≤ 2 ^ 31 * p := Nat.mul_le_mul_right _ (by omega)
      _ < 2 ^ 54 := by omega
  have h2 : (r : Int) * p = ((r * p : Nat) : Int) := by push_cast; rfl
  rw [h2]
  refine ⟨i64_eq (by omega), ?_⟩
  unfold split wrapI32
  omega

theorem Iv.event_k (iv : Iv) (ev : Event) : (iv.event ev).k = iv.norm.k := by
  cases ev <;> simp [Iv.event, Iv.select] <;> split <;> rfl

theorem rep_event_of {e e1 : Encoder} {iv : Iv} (h : Rep e iv) {ev : Event} (hv : ev.Valid)
    (he1 : e.normalize = some e1) (h1 : Rep e1 iv.norm) :
    ∃ e', e.event ev = some e' ∧ Rep e' (iv.event ev) := by
  have hn := norm_range h.hr1
  cases ev with
  | bit p v =>
    obtain ⟨hi, hw⟩ := helper_eq hn.2 hv.2
    have hs := split_pos hn.1 hv
    simp only [Encoder.event, Encoder.encodeBit, he1, Option.bind_eq_bind, Option.bind_some, h1.hr,
      hi, hw]
    cases v with
    | false =>
      simp only [Bool.false_eq_true, if_false]
      exact ⟨_, rfl, rep_low h1 ⟨hs.1, hs.2.le⟩⟩
    | true =>
      simp only [if_true, addWithCarry_range, h1.hr]
      rw [i32_eq (by omega)]
      simp only [Option.bind_some]
      refine ⟨_, rfl, ?_⟩
      have := rep_add h1 hs.2
      rw [Nat.cast_sub hs.2.le] at this
      exact this
  | rare v =>
    simp only [Encoder.event, Encoder.encodeRareEvent, he1, Option.bind_eq_bind, Option.bind_some,
      h1.hr]
    have hi : i32 ((iv.norm.range : Int) - 1) = some ((iv.norm.range - 1 : Nat) : Int) := by
      rw [i32_eq (by omega)]; congr 1; omega
    simp only [hi, Option.bind_some]
    cases v with
    | false =>
      simp only [Bool.false_eq_true, if_false]
      exact ⟨_, rfl, rep_low h1 (by omega)⟩
    | true =>
      simp only [if_true]
      refine ⟨_, rfl, ?_⟩
      have := rep_add h1 (m := iv.norm.range - 1) (by omega)
      have h2 : iv.norm.range - (iv.norm.range - 1) = 1 := by omega
      rw [h2] at this
      exact this

theorem rep_event {e : Encoder} {iv : Iv} (h : Rep e iv) {ev : Event} (hv : ev.Valid)
    (hk : (iv.event ev).k < 2 ^ 31) :
    ∃ e', e.event ev = some e' ∧ Rep e' (iv.event ev) := by
  rw [Iv.event_k] at hk
  obtain ⟨e1, he1, h1⟩ := rep_normalize h hk
  exact rep_event_of h hv he1 h1

theorem Iv.k_le_event (iv : Iv) (ev : Event) : iv.k ≤ (iv.event ev).k := by
  rw [Iv.event_k]; simp [Iv.norm, Iv.scale]

theorem Iv.k_le_events (iv : Iv) (evs : List Event) : iv.k ≤ (iv.events evs).k := by
  induction evs generalizing iv with
  | nil => exact Nat.le_refl _
  | cons ev evs ih => exact Nat.le_trans (iv.k_le_event ev) (ih _)

theorem rep_events : ∀ (evs : List Event) {e : Encoder} {iv : Iv}, Rep e iv →
    (∀ ev ∈ evs, ev.Valid) → (iv.events evs).k < 2 ^ 31 →
    ∃ e', e.events evs = some e' ∧ Rep e' (iv.events evs)
  | [], e, iv, h, _, _ => ⟨e, rfl, h⟩
  | ev :: evs, e, iv, h, hv, hk => by
    obtain ⟨e1, he1, h1⟩ := rep_event h (hv ev (by simp))
      (Nat.lt_of_le_of_lt (Iv.k_le_events _ evs) hk)
    obtain ⟨e2, he2, h2⟩ := rep_events evs h1 (fun x hx => hv x (by simp [hx])) hk
    exact ⟨e2, by simp [Encoder.events, he1, he2], h2⟩

/-- What one round of the final flush does. -/
structure FlushOk (e e' : Encoder) : Prop where
  run : e.flushRound = some e'
  ok : OutOk e'
  buffer : e'.buffer = wrapI32 (e.buffer * 2 ^ 8)
  delay : e'.delay = true
  carry : e'.carry = false
  value : (val e'.pend : Int) = (val e.pend + e.c : Nat) * 256 + e.buffer / 2 ^ 23 % 2 ^ 8
  length : e'.pend.length = e.pend.length + 1
  last : e.buffer / 2 ^ 23 % 2 ^ 8 ≠ 255 → e'.run = 0

theorem flushRound_run (e : Encoder) (h : OutOk e)
    (hlen : e.buffer / 2 ^ 23 % 2 ^ 8 = 255 → e.carry = false → e.run < 2 ^ 31 - 1) :
    ∃ e', FlushOk e e' := by
  obtain ⟨e', he, ok, h1, h2, h3, h4, h5, h6, h7, h8⟩ :=
    outputByte_run e (e.buffer / 2 ^ 23 % 2 ^ 8) h (by omega) hlen
  refine ⟨{ e' with buffer := wrapI32 (e'.buffer * 2 ^ 8) }, ?_, ?_, ?_, h3, h4, h5, h6, h8⟩
  · simp only [Encoder.flushRound, he, Option.bind_eq_bind, Option.bind_some]
  · exact ⟨ok.hrun, ok.hd, ok.hlast, ok.hcl, ok.hout⟩
  · simp [h1]

theorem flushRound_spec (e : Encoder) (h : OutOk e) (hlen : e.pend.length < 2 ^ 31 - 1) :
    ∃ e', FlushOk e e' :=
  flushRound_run e h fun _ _ => by
    simp only [Encoder.pend, List.length_append, List.length_replicate] at hlen; omega

theorem finish_of {e e1 e2 e3 e4 e5 : Encoder} {iv : Iv} (h : Rep e iv) (g1 : FlushOk e e1) (g2 : FlushOk e1 e2)
    (g3 : FlushOk e2 e3) (g4 : FlushOk e3 e4) (g5 : FlushOk e4 e5) :
    ∃ bytes, e.finish = some bytes ∧ val bytes = 2 * iv.low ∧ bytes.length = iv.k + 4 ∧
      ∀ b ∈ bytes, b < 256 := by
  have hl := h.hk
  have hb := h.hb
  obtain ⟨f1, ok1, b1, d1, c1, v1, l1, -⟩ := g1
  obtain ⟨f2, ok2, b2, d2, c2, v2, l2, -⟩ := g2
  obtain ⟨f3, ok3, b3, d3, c3, v3, l3, -⟩ := g3
  obtain ⟨f4, ok4, b4, d4, c4, v4, l4, -⟩ := g4
  obtain ⟨f5, ok5, b5, d5, c5, v5, l5, r5⟩ := g5
  have k1 : e1.c = 0 := by simp [Encoder.c, c1]
  have k2 : e2.c = 0 := by simp [Encoder.c, c2]
  have k3 : e3.c = 0 := by simp [Encoder.c, c3]
  have k4 : e4.c = 0 := by simp [Encoder.c, c4]
  unfold wrapI32 at *
  have z5 : e4.buffer / 2 ^ 23 % 2 ^ 8 = 0 := by omega
  rw [z5] at v5 r5
  have r5 := r5 (by decide)
  have p5 : e5.pend = e5.out ++ [e5.last] := by simp [Encoder.pend, d5, r5]
  rw [p5] at v5 l5
  rw [val_append_singleton] at v5
  simp only [List.length_append, List.length_singleton] at l5
  refine ⟨e5.out, by simp [Encoder.finish, f1, f2, f3, f4, f5], ?_, by omega, ok5.hout⟩
  have hlow := h.hlow
  have l5 := ok5.hlast
  rw [k1] at v2; rw [k2] at v3; rw [k3] at v4; rw [k4] at v5
  push_cast at *
  omega

theorem finish_spec {e : Encoder} {iv : Iv} (h : Rep e iv) (hk : iv.k + 5 < 2 ^ 31) :
    ∃ bytes, e.finish = some bytes ∧ val bytes = 2 * iv.low ∧ bytes.length = iv.k + 4 ∧
      ∀ b ∈ bytes, b < 256 := by
  have hl := h.hk
  obtain ⟨e1, g1⟩ := flushRound_spec e h.outOk (by omega)
  have l1 := g1.length
  obtain ⟨e2, g2⟩ := flushRound_spec e1 g1.ok (by omega)
  have l2 := g2.length
  obtain ⟨e3, g3⟩ := flushRound_spec e2 g2.ok (by omega)
  have l3 := g3.length
  obtain ⟨e4, g4⟩ := flushRound_spec e3 g3.ok (by omega)
  have l4 := g4.length
  obtain ⟨e5, g5⟩ := flushRound_spec e4 g4.ok (by omega)
  exact finish_of h g1 g2 g3 g4 g5

end Verif.Coding
