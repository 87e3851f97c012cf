import Verif.Coding.Size

/-!
# C88: coding without a limit on the length

C01, C02 and C03 assume that the output is shorter than `2^31` bytes, because the encoder counts the bytes it holds
back in an `i32`. Here the length is not limited: whenever the encoder finishes, the output is right, and the only way
for it not to finish is a run of `2^31` bytes `0xff` that waits for a carry. Such an input exists.
-/

namespace Verif.Coding

open Verif

/-- Specification: the number `n`, written in base 256, ends in at least `2^31` digits `0xff`. -/
def EndsInLongRun (n : Nat) : Prop := ∃ r, 2 ^ 31 ≤ r ∧ 256 ^ r ∣ n + 1

theorem long_of_pend (e : Encoder) (hc : e.c = 0) (hrun : (2 : Int) ^ 31 - 1 ≤ e.run) :
    EndsInLongRun ((val e.pend + e.c) * 256 + 255) := by
  refine ⟨e.run.toNat + 1, by omega, val (e.out ++ (if e.delay then [e.last] else [])) + 1, ?_⟩
  rw [hc, Encoder.pend, val_append, List.length_replicate]
  have h := val_replicate_ff e.run.toNat
  generalize val (List.replicate e.run.toNat 255) = w at *
  rw [pow_succ, ← h]
  ring

theorem outputByte_full (e : Encoder) (hc : e.carry = false) (hrun : (2 : Int) ^ 31 - 1 ≤ e.run) :
    e.outputByte 255 = none := by
  unfold Encoder.outputByte
  rw [check_pos (by omega)]
  simp only [Option.bind_eq_bind, Option.bind_some, hc]
  have : i32 (e.run + 1) = none := by
    unfold i32
    rw [if_neg (by omega)]
  simp [this]

/-- One round of the normalisation loop: right, or stopped by a long run. -/
theorem shift_cases {e : Encoder} {iv : Iv} (h : Rep e iv) (hlt : iv.range < 2 ^ 23) :
    (∃ e', e.outputByte (e.buffer / 2 ^ 23) = some e' ∧
      Rep { e' with buffer := wrapI32 (e'.buffer * 2 ^ 8) % 2 ^ 31,
                    range := wrapI32 (e'.range * 2 ^ 8) } (iv.scale 1)) ∨
    (e.outputByte (e.buffer / 2 ^ 23) = none ∧ EndsInLongRun (iv.low * 256 ^ 1 / 2 ^ 31)) := by
  by_cases hk : e.buffer / 2 ^ 23 = 255 → e.carry = false → e.run < 2 ^ 31 - 1
  · exact .inl (rep_shift_run h hlt hk)
  · push Not at hk
    obtain ⟨h1, h2, h3⟩ := hk
    refine .inr ⟨by rw [h1]; exact outputByte_full e h2 h3, ?_⟩
    have hc : e.c = 0 := by simp [Encoder.c, h2]
    have hl := long_of_pend e hc h3
    have hlow := h.hlow
    have : iv.low * 256 ^ 1 / 2 ^ 31 = (val e.pend + e.c) * 256 + 255 := by
      rw [hc] at *
      push_cast at *
      omega
    rw [this]
    exact hl

theorem loop_cases : ∀ (fuel : Nat) {e : Encoder} {iv : Iv}, Rep e iv → shifts iv.range < fuel →
    (∃ e', Encoder.normalizeLoop fuel e = some e' ∧ Rep e' iv.norm) ∨
    (Encoder.normalizeLoop fuel e = none ∧
      ∃ j, 1 ≤ j ∧ j ≤ shifts iv.range ∧ EndsInLongRun (iv.low * 256 ^ j / 2 ^ 31))
  | 0, _, _, _, hf => absurd hf (Nat.not_lt_zero _)
  | fuel + 1, e, iv, h, hf => by
    unfold Encoder.normalizeLoop
    have hr := h.hr
    by_cases hlt : iv.range < 2 ^ 23
    · rw [if_pos (by omega)]
      have hs := shifts_succ h.hr1.1 hlt
      rcases shift_cases h hlt with ⟨e', he, hrep⟩ | ⟨he, hl⟩
      · simp only [he, Option.bind_eq_bind, Option.bind_some]
        have hsr : (iv.scale 1).range = iv.range * 256 := by simp [Iv.scale]
        have hsl : (iv.scale 1).low = iv.low * 256 := by simp [Iv.scale]
        rcases loop_cases fuel hrep (by rw [hsr]; omega) with ⟨e'', he'', hrep''⟩ | ⟨he'', j, j1, j2, hl⟩
        · refine .inl ⟨e'', he'', ?_⟩
          have : iv.norm = (iv.scale 1).norm := by
            rw [Iv.norm, Iv.norm, Iv.scale_scale, hsr, hs, Nat.add_comm]
          rw [this]; exact hrep''
        · refine .inr ⟨he'', j + 1, by omega, by rw [hsr] at j2; omega, ?_⟩
          rw [hsl, Nat.mul_assoc, ← Nat.pow_succ'] at hl
          exact hl
      · exact .inr ⟨by rw [he]; rfl, 1, by omega, by omega, hl⟩
    · rw [if_neg (by omega)]
      refine .inl ⟨e, rfl, ?_⟩
      have : iv.norm = iv := by
        have hs : shifts iv.range = 0 := by unfold shifts; rw [if_pos (Nat.le_of_not_lt hlt)]
        simp [Iv.norm, hs, Iv.scale]
      rw [this]; exact h

theorem normalize_cases {e : Encoder} {iv : Iv} (h : Rep e iv) :
    (∃ e', e.normalize = some e' ∧ Rep e' iv.norm) ∨
    (e.normalize = none ∧ ∃ j, 1 ≤ j ∧ j ≤ 4 ∧ EndsInLongRun (iv.low * 256 ^ j / 2 ^ 31)) := by
  unfold Encoder.normalize
  have := h.hr; have := h.hr1
  rw [check_pos (by omega)]
  have hs := shifts_le iv.range
  rcases loop_cases 4 h (by omega) with h1 | ⟨h1, j, j1, j2, h2⟩
  · exact .inl h1
  · exact .inr ⟨h1, j, j1, by omega, h2⟩

theorem event_cases {e : Encoder} {iv : Iv} (h : Rep e iv) {ev : Event} (hv : ev.Valid) :
    (∃ e', e.event ev = some e' ∧ Rep e' (iv.event ev)) ∨
    (e.event ev = none ∧ ∃ j, 1 ≤ j ∧ j ≤ 4 ∧ EndsInLongRun (iv.low * 256 ^ j / 2 ^ 31)) := by
  rcases normalize_cases h with ⟨e1, he1, h1⟩ | ⟨he1, h1⟩
  · exact .inl (rep_event_of h hv he1 h1)
  · refine .inr ⟨?_, h1⟩
    cases ev <;> simp [Encoder.event, Encoder.encodeBit, Encoder.encodeRareEvent, he1]

theorem events_cases : ∀ (evs : List Event) {e : Encoder} {iv : Iv}, Rep e iv → (∀ ev ∈ evs, ev.Valid) →
    (∃ e', e.events evs = some e' ∧ Rep e' (iv.events evs)) ∨
    (e.events evs = none ∧ ∃ pre, pre <+: evs ∧
      ∃ j, 1 ≤ j ∧ j ≤ 4 ∧ EndsInLongRun ((iv.events pre).low * 256 ^ j / 2 ^ 31))
  | [], e, iv, h, _ => .inl ⟨e, rfl, h⟩
  | ev :: evs, e, iv, h, hv => by
    rcases event_cases h (hv ev (by simp)) with ⟨e1, he1, h1⟩ | ⟨he1, h1⟩
    · rcases events_cases evs h1 (fun x hx => hv x (by simp [hx])) with ⟨e2, he2, h2⟩ | ⟨he2, pre, hp, h2⟩
      · exact .inl ⟨e2, by simp [Encoder.events, he1, he2], h2⟩
      · exact .inr ⟨by simp [Encoder.events, he1, he2], ev :: pre, by simpa using hp, h2⟩
    · exact .inr ⟨by simp [Encoder.events, he1], [], List.nil_prefix, h1⟩

theorem flush_cases (e : Encoder) (h : OutOk e) :
    (∃ e', FlushOk e e') ∨ (e.flushRound = none ∧ e.buffer / 2 ^ 23 % 2 ^ 8 = 255 ∧
      EndsInLongRun ((val e.pend + e.c) * 256 + 255)) := by
  by_cases hk : e.buffer / 2 ^ 23 % 2 ^ 8 = 255 → e.carry = false → e.run < 2 ^ 31 - 1
  · exact .inl (flushRound_run e h hk)
  · push Not at hk
    obtain ⟨h1, h2, h3⟩ := hk
    have hc : e.c = 0 := by simp [Encoder.c, h2]
    exact .inr ⟨by rw [Encoder.flushRound, h1, outputByte_full e h2 h3]; rfl, h1, long_of_pend e hc h3⟩

theorem finish_cases {e : Encoder} {iv : Iv} (h : Rep e iv) :
    (∃ bytes, e.finish = some bytes ∧ val bytes = 2 * iv.low ∧ bytes.length = iv.k + 4 ∧ ∀ b ∈ bytes, b < 256) ∨
    (e.finish = none ∧ ∃ j, 1 ≤ j ∧ j ≤ 4 ∧ EndsInLongRun (iv.low * 256 ^ j / 2 ^ 31)) := by
  have hb := h.hb
  have hlow := h.hlow
  rcases flush_cases e h.outOk with ⟨e1, g1⟩ | ⟨f1, o1, l1⟩
  swap
  · refine .inr ⟨by simp [Encoder.finish, f1], 1, by omega, by omega, ?_⟩
    have : iv.low * 256 ^ 1 / 2 ^ 31 = (val e.pend + e.c) * 256 + 255 := by
      push_cast at *; omega
    rw [this]; exact l1
  have b1 := g1.buffer
  have v1 := g1.value
  have k1 : e1.c = 0 := by simp [Encoder.c, g1.carry]
  unfold wrapI32 at b1
  rcases flush_cases e1 g1.ok with ⟨e2, g2⟩ | ⟨f2, o2, l2⟩
  swap
  · refine .inr ⟨by simp [Encoder.finish, g1.run, f2], 2, by omega, by omega, ?_⟩
    have : iv.low * 256 ^ 2 / 2 ^ 31 = (val e1.pend + e1.c) * 256 + 255 := by
      rw [k1]; push_cast at *; omega
    rw [this]; exact l2
  have b2 := g2.buffer
  have v2 := g2.value
  have k2 : e2.c = 0 := by simp [Encoder.c, g2.carry]
  unfold wrapI32 at b2
  rw [k1] at v2
  rcases flush_cases e2 g2.ok with ⟨e3, g3⟩ | ⟨f3, o3, l3⟩
  swap
  · refine .inr ⟨by simp [Encoder.finish, g1.run, g2.run, f3], 3, by omega, by omega, ?_⟩
    have : iv.low * 256 ^ 3 / 2 ^ 31 = (val e2.pend + e2.c) * 256 + 255 := by
      rw [k2]; push_cast at *; omega
    rw [this]; exact l3
  have b3 := g3.buffer
  have v3 := g3.value
  have k3 : e3.c = 0 := by simp [Encoder.c, g3.carry]
  unfold wrapI32 at b3
  rw [k2] at v3
  rcases flush_cases e3 g3.ok with ⟨e4, g4⟩ | ⟨f4, o4, l4⟩
  swap
  · refine .inr ⟨by simp [Encoder.finish, g1.run, g2.run, g3.run, f4], 4, by omega, by omega, ?_⟩
    have : iv.low * 256 ^ 4 / 2 ^ 31 = (val e3.pend + e3.c) * 256 + 255 := by
      rw [k3]; push_cast at *; omega
    rw [this]; exact l4
  have b4 := g4.buffer
  unfold wrapI32 at b4
  rcases flush_cases e4 g4.ok with ⟨e5, g5⟩ | ⟨f5, o5, l5⟩
  swap
  · exfalso; omega
  exact .inl (finish_of h g1 g2 g3 g4 g5)

/-- What becomes of a sequence of events. -/
theorem encode_cases (evs : List Event) (hv : ∀ ev ∈ evs, ev.Valid) :
    (∃ bytes, encode evs = some bytes ∧ val bytes = 2 * (Iv.init.events evs).low ∧
      bytes.length = (Iv.init.events evs).k + 4 ∧ ∀ b ∈ bytes, b < 256) ∨
    (encode evs = none ∧ ∃ pre, pre <+: evs ∧
      ∃ j, 1 ≤ j ∧ j ≤ 4 ∧ EndsInLongRun ((Iv.init.events pre).low * 256 ^ j / 2 ^ 31)) := by
  rcases events_cases evs rep_new hv with ⟨e, he, h⟩ | ⟨he, h⟩
  · rcases finish_cases h with ⟨bytes, hf, h1⟩ | ⟨hf, h1⟩
    · exact .inl ⟨bytes, by simp [encode, he, hf], h1⟩
    · exact .inr ⟨by simp [encode, he, hf], evs, List.prefix_refl _, h1⟩
  · exact .inr ⟨by simp [encode, he], h⟩

/-- **C88 (round trip, any length).** Whenever the encoder finishes, its output consists of bytes, the decoder given
the output and anything after it returns the values coded and leaves what follows unread. No limit on the number of
events or on the length of the output. -/
theorem C88_round_trip (evs : List Event) (hv : ∀ ev ∈ evs, ev.Valid) {bytes : List Nat}
    (he : encode evs = some bytes) (trail : List Nat) :
    (∀ b ∈ bytes, b < 256) ∧
      ∃ d, decode (bytes ++ trail) (evs.map Event.query) = some (evs.map Event.value, d) ∧ d.input = trail := by
  rcases encode_cases evs hv with ⟨bytes', h1, h2, h3, h4⟩ | ⟨h1, -⟩
  · rw [he, Option.some.injEq] at h1
    subst h1
    exact ⟨h4, decode_code evs hv h2 h3 h4 trail⟩
  · rw [he] at h1; cases h1

/-- **C88 (size, any length).** Whenever the encoder finishes, the output is four bytes longer than a number of bytes
that lies between the information content of the events less 31 bits, and the information content (with the rounding
of one part in `2^23` per event in either direction, as in C03). -/
theorem C88_size (evs : List Event) (hv : ∀ ev ∈ evs, ev.Valid) {bytes : List Nat}
    (he : encode evs = some bytes) :
    4 ≤ bytes.length ∧ (evs.map fun ev => contentOf (shareMost ev)).sum - 31 ≤ 8 * ((bytes.length : ℝ) - 4) ∧
      8 * ((bytes.length : ℝ) - 4) ≤ (evs.map fun ev => contentOf (share ev)).sum := by
  rcases encode_cases evs hv with ⟨bytes', h1, -, h3, -⟩ | ⟨h1, -⟩
  · rw [he, Option.some.injEq] at h1
    subst h1
    obtain ⟨k1, k2⟩ := bits_emitted evs hv
    have e : (bytes.length : ℝ) - 4 = emitted evs := by
      have : emitted evs = (Iv.init.events evs).k := rfl
      rw [h3, this]
      push_cast
      ring
    exact ⟨by omega, by rw [e]; exact k1, by rw [e]; exact k2⟩
  · rw [he] at h1; cases h1

/-- **C88 (cause of failure).** If the encoder does not finish, then at some point of the input the exact code of the
events so far (the lower end of the interval), cut after some whole byte, ends in at least `2^31` bytes `0xff`. -/
theorem C88_panic_cause (evs : List Event) (hv : ∀ ev ∈ evs, ev.Valid) (he : encode evs = none) :
    ∃ pre, pre <+: evs ∧ ∃ j, 1 ≤ j ∧ j ≤ 4 ∧ EndsInLongRun ((Iv.init.events pre).low * 256 ^ j / 2 ^ 31) := by
  rcases encode_cases evs hv with ⟨bytes', h1, -⟩ | ⟨-, h⟩
  · rw [he] at h1; cases h1
  · exact h

/-! ## An input on which the encoder does not finish -/

/-- The encoder holding back `run` bytes `0xff`. -/
def holding (buffer range : Int) (run : Nat) : Encoder :=
  { out := [255, 255, 255], buffer := buffer, range := range, run := run, last := 252, delay := true, carry := false }

/-- The encoder holding back `run` bytes `0xff`, before the next two events. -/
def waiting (run : Nat) : Encoder := holding 2143289344 8388608 run

/-- Two events that add one byte `0xff`. -/
def onemore : List Event := [.bit (4177920) true, .bit 65281 false]

/-- Events that lead to the first byte held back. -/
def start : List Event := [.rare true, .bit (4186112) true, .bit 32705 false] ++ onemore

theorem new_start : Encoder.new.events start = some (waiting 1) := by decide +kernel

theorem waiting_first (run : Nat) : (waiting run).event (.bit 4177920 true) =
    some (holding 2147467264 4210688 run) := by
  have h0 : (waiting run).normalize = some (waiting run) := by
    unfold Encoder.normalize Encoder.normalizeLoop
    rw [check_pos (by simp [waiting, holding]), if_neg (by simp [waiting, holding])]
    rfl
  have h1 : i64 (8388608 * (4177920 : Nat)) = some (8388608 * 4177920) := by decide +kernel
  have h2 : wrapI32 (8388608 * 4177920 / 2 ^ 23) = 4177920 := by decide +kernel
  have h3 : i32 (8388608 - 4177920) = some 4210688 := by decide +kernel
  have h4 : wrapI32 (2143289344 + 4177920) = 2147467264 := by decide +kernel
  simp only [Encoder.event, Encoder.encodeBit, h0, Option.bind_eq_bind, Option.bind_some]
  simp only [waiting, holding, h1, h2, h4, Option.bind_some, Encoder.addWithCarry, if_true]
  rw [if_neg (by norm_num), h3]
  rfl

theorem holding_output (run : Nat) (h : run < 2 ^ 31 - 1) :
    (holding 2147467264 4210688 run).outputByte 255 = some (holding 2147467264 4210688 (run + 1)) := by
  have h1 : i32 ((run : Int) + 1) = some ((run : Int) + 1) := i32_eq (by omega)
  unfold Encoder.outputByte
  rw [check_pos (by norm_num)]
  simp only [holding, Option.bind_eq_bind, Option.bind_some, h1]
  rw [if_neg (by simp)]
  simp

theorem holding_normalize (run : Nat) (h : run < 2 ^ 31 - 1) :
    (holding 2147467264 4210688 run).normalize = some (holding 2143289344 1077936128 (run + 1)) := by
  have h3 : ((2147467264 : Int) / 2 ^ 23) = 255 := by norm_num
  have h5 : wrapI32 (2147467264 * 2 ^ 8) % 2 ^ 31 = 2143289344 := by decide +kernel
  have h6 : wrapI32 (4210688 * 2 ^ 8) = 1077936128 := by decide +kernel
  have hb : ∀ b r n, (holding b r n).buffer = b := fun _ _ _ => rfl
  have hr : ∀ b r n, (holding b r n).range = r := fun _ _ _ => rfl
  have hs : ∀ b r n b' r', { holding b r n with buffer := b', range := r' } = holding b' r' n := fun _ _ _ _ _ => rfl
  unfold Encoder.normalize Encoder.normalizeLoop
  simp only [hb, hr]
  rw [check_pos (by norm_num), Option.bind_eq_bind, Option.bind_some, if_pos (by norm_num), h3, holding_output run h,
    Option.bind_eq_bind, Option.bind_some]
  simp only [hb, hr, h5, h6]
  unfold Encoder.normalizeLoop
  simp only [hs]
  rw [if_neg (by norm_num)]

theorem event_zero (e e1 : Encoder) (h : e.normalize = some e1) (hr : e1.range = 1077936128) :
    e.event (.bit 65281 false) = some { e1 with range := 8388608 } := by
  have h7 : i64 (1077936128 * (65281 : Nat)) = some (1077936128 * 65281) := by decide +kernel
  have h8 : wrapI32 (1077936128 * 65281 / 2 ^ 23) = 8388608 := by decide +kernel
  simp only [Encoder.event, Encoder.encodeBit, h, hr, Option.bind_eq_bind, Option.bind_some, h7, h8]
  rfl

theorem waiting_more (run : Nat) (h : run < 2 ^ 31 - 1) :
    (waiting run).events onemore = some (waiting (run + 1)) := by
  rw [onemore, Encoder.events, waiting_first, Option.bind_eq_bind, Option.bind_some, Encoder.events,
    event_zero _ _ (holding_normalize run h) rfl]
  rfl

theorem waiting_full : (waiting (2 ^ 31 - 1)).events onemore = none := by
  simp only [onemore, Encoder.events, waiting_first, Option.bind_eq_bind, Option.bind_some]
  have h2 : ∀ e : Encoder, e.buffer = 2147467264 → e.range = 4210688 → e.carry = false → 2 ^ 31 - 1 ≤ e.run →
      e.event (.bit 65281 false) = none := by
    intro e hb hr hc h
    have h1 := outputByte_full e hc h
    have h2 : e.normalize = none := by
      unfold Encoder.normalize Encoder.normalizeLoop
      rw [check_pos (by rw [hr]; norm_num), Option.bind_eq_bind, Option.bind_some, if_pos (by rw [hr]; norm_num), hb]
      have h3 : ((2147467264 : Int) / 2 ^ 23) = 255 := by norm_num
      rw [h3, h1]
      rfl
    simp [Encoder.event, Encoder.encodeBit, h2]
  rw [h2 _ rfl rfl rfl (by simp [holding])]
  rfl

theorem events_append (l m : List Event) (e : Encoder) : e.events (l ++ m) = (e.events l).bind fun e => e.events m := by
  induction l generalizing e with
  | nil => rfl
  | cons a l ih =>
    simp only [List.cons_append, Encoder.events, Option.bind_eq_bind]
    cases e.event a with
    | none => rfl
    | some e' => simp [ih]

theorem waiting_long : ∀ m run, run + m = 2 ^ 31 - 1 →
    (waiting run).events (List.replicate (m + 1) onemore).flatten = none
  | 0, run, h => by
    have : run = 2 ^ 31 - 1 := by omega
    rw [this]
    simpa using waiting_full
  | m + 1, run, h => by
    rw [List.replicate_succ, List.flatten_cons, events_append, waiting_more run (by omega), Option.bind_some]
    exact waiting_long m (run + 1) (by omega)

/-- **C88 (the failure exists).** There is a sequence of valid events on which the encoder does not finish: the count
of bytes held back overflows. -/
theorem C88_panic_exists : ∃ evs : List Event, (∀ ev ∈ evs, ev.Valid) ∧ encode evs = none := by
  obtain ⟨m, hm⟩ : ∃ m, 1 + m = 2 ^ 31 - 1 := ⟨2 ^ 31 - 2, by norm_num⟩
  refine ⟨start ++ (List.replicate (m + 1) onemore).flatten, ?_, ?_⟩
  · have h1 : ∀ ev ∈ onemore, ev.Valid := by
      simp [onemore, Event.Valid]
    intro ev hev
    rw [List.mem_append, List.mem_flatten] at hev
    rcases hev with h | ⟨l, hl, h⟩
    · revert h ev
      simp [start, onemore, Event.Valid]
    · rw [(List.mem_replicate.mp hl).2] at h
      exact h1 ev h
  · rw [encode, events_append, new_start, Option.bind_some, waiting_long m 1 hm]
    rfl

/-- The hypotheses of the round trip: a short input that finishes. -/
example : ∃ bytes, encode start = some bytes ∧ bytes.length = 9 :=
  ⟨[255, 255, 255, 252, 255, 255, 128, 0, 0], by decide +kernel, rfl⟩

end Verif.Coding
