import Verif.Coding.Lemmas

/-! # Helper lemmas: the decoder tracks the exact interval -/

namespace Verif.Coding

open Verif

/-- Decoder state after reading the bytes `pre`, when the exact interval is `iv`. -/
structure DRep (d : Decoder) (iv : Iv) (pre : List Nat) : Prop where
  hr : d.range = iv.range
  hr1 : 1 ≤ iv.range ∧ iv.range < 2 ^ 31
  hb : d.buffer = ((val pre / 2 : Nat) : Int) - iv.low
  hn : d.nextHighBit = ((val pre % 2 : Nat) : Int)
  hk : pre.length = iv.k + 4
  hin : iv.low ≤ val pre / 2 ∧ val pre / 2 < iv.low + iv.range

theorem val_lt (l : List Nat) (h : ∀ b ∈ l, b < 256) : val l < 256 ^ l.length := by
  induction l using List.reverseRecOn with
  | nil => simp [val]
  | append_singleton l b ih =>
    rw [val_append_singleton, List.length_append, List.length_singleton, pow_succ]
    have h1 := ih (fun x hx => h x (by simp [hx]))
    have h2 := h b (by simp)
    omega

theorem drep_shift {d : Decoder} {iv : Iv} {pre : List Nat} (h : DRep d iv pre)
    (hlt : iv.range < 2 ^ 23) {b : Nat} {rest : List Nat} (hin : d.input = b :: rest) (hb : b < 256) :
    ∃ d', d.shiftIn = some d' ∧ d'.input = rest ∧
      DRep { d' with range := wrapI32 (d'.range * 2 ^ 8) } (iv.scale 1) (pre ++ [b]) := by
  obtain ⟨hr, hr1, hbuf, hn, hk, hlo, hhi⟩ := h
  have hw : wrapI32 (d.buffer * 2 ^ 8) = d.buffer * 2 ^ 8 := wrapI32_eq (by omega)
  have hi : i32 (d.buffer * 2 ^ 8 + ((b : Int) / 2 + d.nextHighBit * 2 ^ 7)) =
      some (d.buffer * 2 ^ 8 + ((b : Int) / 2 + d.nextHighBit * 2 ^ 7)) := i32_eq (by omega)
  refine ⟨{ input := rest, range := d.range, nextHighBit := (b : Int) % 2,
            buffer := d.buffer * 2 ^ 8 + ((b : Int) / 2 + d.nextHighBit * 2 ^ 7) }, ?_, rfl, ?_⟩
  · simp only [Decoder.shiftIn, Decoder.inputByte, hin, hw, Option.bind_eq_bind, Option.bind_some, hi]
  · have hw2 : wrapI32 (d.range * 2 ^ 8) = d.range * 2 ^ 8 := wrapI32_eq (by omega)
    constructor
    · rw [hw2]; simp only [Iv.scale, hr]; push_cast; ring
    · simp only [Iv.scale]; omega
    · simp only [Iv.scale, val_append_singleton]; push_cast; omega
    · simp only [val_append_singleton]; push_cast; omega
    · simp [Iv.scale, hk]
    · simp only [Iv.scale, val_append_singleton]; omega

theorem drep_loop : ∀ (fuel : Nat) {d : Decoder} {iv : Iv} {pre : List Nat}, DRep d iv pre →
    shifts iv.range < fuel → ∀ {mid rest : List Nat}, d.input = mid ++ rest →
    mid.length = shifts iv.range → (∀ b ∈ mid, b < 256) →
    ∃ d', Decoder.normalizeLoop fuel d = some d' ∧ d'.input = rest ∧ DRep d' iv.norm (pre ++ mid)
  | 0, _, _, _, _, hf, _, _, _, _, _ => absurd hf (Nat.not_lt_zero _)
  | fuel + 1, d, iv, pre, h, hf, mid, rest, hin, hml, hmb => by
    unfold Decoder.normalizeLoop
    have hr := h.hr
    by_cases hlt : iv.range < 2 ^ 23
    · rw [if_pos (by omega)]
      have hs := shifts_succ h.hr1.1 hlt
      match mid, hml, hmb, hin with
      | [], hml, _, _ => simp at hml; omega
      | b :: mid, hml, hmb, hin =>
        obtain ⟨d', hd, hin', hrep⟩ := drep_shift h hlt hin (hmb b (by simp))
        have hsr : (iv.scale 1).range = iv.range * 256 := by simp [Iv.scale]
        obtain ⟨d'', hd'', hin'', hrep''⟩ := drep_loop fuel hrep (by rw [hsr]; omega)
          (mid := mid) (rest := rest) hin' (by rw [hsr]; simp at hml; omega)
          (fun x hx => hmb x (by simp [hx]))
        simp only [hd, Option.bind_eq_bind, Option.bind_some]
        refine ⟨d'', hd'', hin'', ?_⟩
        have : iv.norm = (iv.scale 1).norm := by
          rw [Iv.norm, Iv.norm, Iv.scale_scale, hsr, hs, Nat.add_comm]
        rw [this]; simpa using hrep''
    · rw [if_neg (by omega)]
      have hs : shifts iv.range = 0 := by unfold shifts; rw [if_pos (Nat.le_of_not_lt hlt)]
      rw [hs] at hml
      have : mid = [] := List.length_eq_zero_iff.mp hml
      subst this
      refine ⟨d, rfl, hin, ?_⟩
      have : iv.norm = iv := by simp [Iv.norm, hs, Iv.scale]
      rw [this]; simpa using h

/-- The final interval lies inside the current one (rescaled). -/
def Inside (f iv : Iv) : Prop :=
  ∃ d, f.k = iv.k + d ∧ iv.low * 256 ^ d ≤ f.low ∧ f.low + f.range ≤ (iv.low + iv.range) * 256 ^ d

theorem Inside.refl (iv : Iv) : Inside iv iv := ⟨0, by simp⟩

theorem Inside.trans {a b c : Iv} (h1 : Inside a b) (h2 : Inside b c) : Inside a c := by
  obtain ⟨d, k1, l1, u1⟩ := h1
  obtain ⟨d', k2, l2, u2⟩ := h2
  refine ⟨d' + d, by omega, ?_, ?_⟩
  · rw [pow_add, ← Nat.mul_assoc]
    exact Nat.le_trans (Nat.mul_le_mul_right _ l2) l1
  · rw [pow_add, ← Nat.mul_assoc]
    exact Nat.le_trans u1 (Nat.mul_le_mul_right _ u2)

theorem Inside.scale (iv : Iv) (s : Nat) : Inside (iv.scale s) iv :=
  ⟨s, rfl, Nat.le_refl _, by simp [Iv.scale, Nat.add_mul]⟩

theorem Inside.select (iv : Iv) {m : Nat} (h : m ≤ iv.range) (v : Bool) :
    Inside (iv.select m v) iv := by
  refine ⟨0, ?_⟩
  unfold Iv.select
  split <;> simp <;> omega

theorem event_range {iv : Iv} (h : 1 ≤ iv.range ∧ iv.range < 2 ^ 31) {ev : Event} (hv : ev.Valid) :
    1 ≤ (iv.event ev).range ∧ (iv.event ev).range < 2 ^ 31 := by
  have hn := norm_range h
  cases ev with
  | bit p v =>
    have hs := split_pos hn.1 hv
    simp only [Iv.event, Iv.select]; split <;> simp only <;> omega
  | rare v =>
    simp only [Iv.event, Iv.select]; split <;> simp only <;> omega

theorem Inside.event {iv : Iv} (h : 1 ≤ iv.range ∧ iv.range < 2 ^ 31) {ev : Event} (hv : ev.Valid) :
    Inside (iv.event ev) iv := by
  have hn := norm_range h
  refine Inside.trans ?_ (Inside.scale iv (shifts iv.range))
  cases ev with
  | bit p v => exact Inside.select iv.norm (split_pos hn.1 hv).2.le v
  | rare v => exact Inside.select iv.norm (by omega) v

theorem Inside.events : ∀ (evs : List Event) {iv : Iv}, 1 ≤ iv.range ∧ iv.range < 2 ^ 31 →
    (∀ ev ∈ evs, ev.Valid) → Inside (iv.events evs) iv ∧ 1 ≤ (iv.events evs).range
  | [], iv, h, _ => ⟨Inside.refl iv, h.1⟩
  | ev :: evs, iv, h, hv => by
    obtain ⟨h1, h2⟩ := Inside.events evs (event_range h (hv ev (by simp)))
      (fun x hx => hv x (by simp [hx]))
    exact ⟨h1.trans (Inside.event h (hv ev (by simp))), h2⟩

/-- The code value read so far lies in the current interval. -/
theorem code_inside {f iv : Iv} (h : Inside f iv) (hf : 1 ≤ f.range) {pre post : List Nat}
    (hv : val (pre ++ post) = 2 * f.low) (hpre : pre.length = iv.k + 4)
    (hlen : (pre ++ post).length = f.k + 4) (hb : ∀ b ∈ post, b < 256) :
    iv.low ≤ val pre / 2 ∧ val pre / 2 < iv.low + iv.range := by
  obtain ⟨d, hk, hl, hu⟩ := h
  have hpl : post.length = d := by rw [List.length_append] at hlen; omega
  rw [val_append, hpl] at hv
  have hpost := val_lt post hb
  rw [hpl] at hpost
  have hpos : 0 < 256 ^ d := Nat.pow_pos (by norm_num)
  have h1 : 2 * iv.low < val pre + 1 := by
    apply Nat.lt_of_mul_lt_mul_right (a := 256 ^ d)
    nlinarith
  have h2 : val pre < 2 * (iv.low + iv.range) := by
    apply Nat.lt_of_mul_lt_mul_right (a := 256 ^ d)
    nlinarith
  omega

theorem decodeBit_eq {d d1 : Decoder} {p r : Nat} (hd : d.normalize = some d1) (hr : d1.range = r)
    (hr1 : 2 ^ 23 ≤ r ∧ r < 2 ^ 31) (hp : 1 ≤ p ∧ p < 2 ^ 23)
    (hb : 0 ≤ d1.buffer ∧ d1.buffer < 2 ^ 31) :
    d.decodeBit p = if d1.buffer < (split r p : Nat) then
      some (false, { d1 with range := (split r p : Nat) })
      else some (true, { d1 with range := (r - split r p : Nat), buffer := d1.buffer - (split r p : Nat) }) := by
  obtain ⟨hi, hw⟩ := helper_eq hr1.2 hp.2
  have hs := split_pos hr1.1 hp
  unfold Decoder.decodeBit
  rw [hd, Option.bind_eq_bind, Option.bind_some, hr, hi, Option.bind_eq_bind, Option.bind_some]
  simp only [hw]
  by_cases hlt : d1.buffer < (split r p : Nat)
  · rw [if_pos hlt, if_pos hlt]
  · rw [if_neg hlt, if_neg hlt, i32_eq (by omega), Option.bind_some,
      i32_eq (by omega), Option.bind_some, Nat.cast_sub hs.2.le]

/-- One decoder call returns the encoded value. -/
theorem drep_event {d : Decoder} {iv f : Iv} {pre code trail : List Nat} {ev : Event}
    (h : DRep d iv pre) (hv : ev.Valid) (hin : Inside f (iv.event ev)) (hf : 1 ≤ f.range)
    (hval : val (pre ++ code) = 2 * f.low) (hlen : (pre ++ code).length = f.k + 4)
    (hb : ∀ b ∈ code, b < 256) (hinp : d.input = code ++ trail) :
    ∃ d' mid code', d.query ev.query = some (ev.value, d') ∧ code = mid ++ code' ∧
      d'.input = code' ++ trail ∧ DRep d' (iv.event ev) (pre ++ mid) := by
  have hk := h.hk
  have hfk : (iv.event ev).k ≤ f.k := by obtain ⟨d, hd, _⟩ := hin; omega
  rw [Iv.event_k] at hfk
  have hnk : iv.norm.k = iv.k + shifts iv.range := rfl
  have hcl : shifts iv.range ≤ code.length := by rw [List.length_append] at hlen; omega
  obtain ⟨mid, code', rfl, hml⟩ : ∃ mid code', code = mid ++ code' ∧ mid.length = shifts iv.range :=
    ⟨code.take (shifts iv.range), code.drop _, (List.take_append_drop _ _).symm, by simp [hcl]⟩
  obtain ⟨d1, hd1, hin1, h1⟩ := drep_loop 4 h (by have := shifts_le iv.range; omega)
    (mid := mid) (rest := code' ++ trail) (by rw [hinp, List.append_assoc]) hml
    (fun b hb' => hb b (by simp [hb']))
  have hd1 : d.normalize = some d1 := hd1
  have hn := norm_range h.hr1
  have hpl : (pre ++ mid).length = (iv.event ev).k + 4 := by
    rw [Iv.event_k, List.length_append]; omega
  have hci := code_inside hin hf (pre := pre ++ mid) (post := code')
    (by rw [List.append_assoc]; exact hval) hpl (by rw [List.append_assoc]; exact hlen)
    (fun b hb' => hb b (by simp [hb']))
  have her := event_range h.hr1 hv
  have hb1 := h1.hb
  cases ev with
  | bit p v =>
    have hs := split_pos hn.1 hv
    have hin' := h1.hin
    have hq : d.query (Event.bit p v).query = _ := decodeBit_eq hd1 h1.hr hn hv (by omega)
    rw [hq]
    clear hq
    simp only [Iv.event] at hci hpl her ⊢
    clear hval hlen hin hfk hnk hcl hml hd1 h hk hb hinp
    generalize iv.norm = nv at *
    have hn1 := h1.hn
    generalize hX : val (pre ++ mid) / 2 = X at *
    cases v with
    | false =>
      simp only [Iv.select, Bool.false_eq_true, if_false] at hci hpl her ⊢
      rw [if_pos (by omega)]
      refine ⟨_, mid, code', rfl, rfl, ?_, ?_⟩
      · exact hin1
      · exact ⟨rfl, her, by rw [hX]; exact hb1, hn1, hpl, by rw [hX]; exact hci⟩
    | true =>
      simp only [Iv.select, if_true] at hci hpl her ⊢
      rw [if_neg (by omega)]
      refine ⟨_, mid, code', rfl, rfl, ?_, ?_⟩
      · exact hin1
      refine ⟨?_, her, ?_, hn1, hpl, by rw [hX]; exact hci⟩
      · simp only
      · rw [hX]; simp only; push_cast; omega
  | rare v =>
    simp only [Event.query, Decoder.query, Decoder.decodeRareEvent, hd1,
      Option.bind_eq_bind, Option.bind_some, h1.hr, Event.value]
    simp only [Iv.event] at hci hpl her ⊢
    clear hval hlen hin hfk hnk hcl hml hd1 h hk hb hinp
    generalize iv.norm = nv at *
    have hn1 := h1.hn
    generalize hX : val (pre ++ mid) / 2 = X at *
    rw [i32_eq (by omega)]
    simp only [Option.bind_some]
    cases v with
    | false =>
      simp only [Iv.select, Bool.false_eq_true, if_false] at hci hpl her ⊢
      rw [if_pos (by omega)]
      refine ⟨_, mid, code', rfl, rfl, ?_, ?_⟩
      · exact hin1
      · exact ⟨by simp only; omega, her, by rw [hX]; exact hb1, hn1, hpl, by rw [hX]; exact hci⟩
    | true =>
      simp only [Iv.select, if_true] at hci hpl her ⊢
      rw [if_neg (by omega)]
      refine ⟨_, mid, code', rfl, rfl, ?_, ?_⟩
      · exact hin1
      · exact ⟨by simp only; omega, her, by rw [hX]; simp only; omega, hn1, hpl, by rw [hX]; exact hci⟩

theorem drep_events : ∀ (evs : List Event) {d : Decoder} {iv : Iv} {pre code trail : List Nat},
    DRep d iv pre → (∀ ev ∈ evs, ev.Valid) →
    val (pre ++ code) = 2 * (iv.events evs).low →
    (pre ++ code).length = (iv.events evs).k + 4 →
    (∀ b ∈ code, b < 256) → d.input = code ++ trail →
    ∃ d', d.queries (evs.map Event.query) = some (evs.map Event.value, d') ∧ d'.input = trail
  | [], d, iv, pre, code, trail, h, _, _, hlen, _, hin => by
    have hk := h.hk
    rw [List.length_append] at hlen
    have : code.length = 0 := by simp only [Iv.events] at hlen; omega
    have : code = [] := List.length_eq_zero_iff.mp this
    subst this
    exact ⟨d, rfl, hin⟩
  | ev :: evs, d, iv, pre, code, trail, h, hv, hval, hlen, hb, hin => by
    have her := event_range h.hr1 (hv ev (by simp))
    have hins := Inside.events evs her (fun x hx => hv x (by simp [hx]))
    obtain ⟨d1, mid, code', hq, rfl, hin1, h1⟩ :=
      drep_event h (hv ev (by simp)) hins.1 hins.2 hval hlen hb hin
    obtain ⟨d2, hq2, hin2⟩ := drep_events evs h1 (fun x hx => hv x (by simp [hx]))
      (code := code') (trail := trail) (by rw [List.append_assoc]; exact hval)
      (by rw [List.append_assoc]; exact hlen) (fun b hb' => hb b (by simp [hb'])) hin1
    exact ⟨d2, by simp [Decoder.queries, hq, hq2], hin2⟩

theorem shiftIn_eq (b : Nat) (rest : List Nat) (buffer range n : Int)
    (hb : b < 256) (hbuf : 0 ≤ buffer ∧ buffer < 2 ^ 23) (hn : 0 ≤ n ∧ n ≤ 1) :
    Decoder.shiftIn { input := b :: rest, buffer := buffer, range := range, nextHighBit := n } =
      some { input := rest, buffer := buffer * 256 + ((b : Int) / 2 + n * 128), range := range,
             nextHighBit := (b : Int) % 2 } := by
  have hw : wrapI32 (buffer * 2 ^ 8) = buffer * 256 := wrapI32_eq (by omega)
  have hi : i32 (buffer * 256 + ((b : Int) / 2 + n * 2 ^ 7)) =
      some (buffer * 256 + ((b : Int) / 2 + n * 128)) := i32_eq (by omega)
  simp only [Decoder.shiftIn, Decoder.inputByte, hw, Option.bind_eq_bind, Option.bind_some, hi]

theorem drep_new {b0 b1 b2 b3 : Nat} {rest : List Nat} (h0 : b0 < 256) (h1 : b1 < 256)
    (h2 : b2 < 256) (h3 : b3 < 256) (hc : val [b0, b1, b2, b3] / 2 < 2 ^ 31 - 1) :
    ∃ d, Decoder.new (b0 :: b1 :: b2 :: b3 :: rest) = some d ∧ d.input = rest ∧
      DRep d Iv.init [b0, b1, b2, b3] := by
  have hval : val [b0, b1, b2, b3] = ((b0 * 256 + b1) * 256 + b2) * 256 + b3 := by simp [val]
  rw [hval] at hc
  unfold Decoder.new
  simp only
  rw [shiftIn_eq b0 _ _ _ _ h0 (by omega) (by omega), Option.bind_eq_bind, Option.bind_some,
    shiftIn_eq b1 _ _ _ _ h1 (by omega) (by omega), Option.bind_some,
    shiftIn_eq b2 _ _ _ _ h2 (by omega) (by omega), Option.bind_some,
    shiftIn_eq b3 _ _ _ _ h3 (by omega) (by omega)]
  refine ⟨_, rfl, rfl, ?_⟩
  constructor
  · simp [Iv.init]
  · simp [Iv.init]
  · rw [hval]; simp only [Iv.init]; push_cast; omega
  · rw [hval]; simp only; push_cast; omega
  · rfl
  · rw [hval]; simp only [Iv.init]; omega

end Verif.Coding
