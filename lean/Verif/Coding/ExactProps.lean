import Verif.Coding.LargeProps
import Verif.Coding.IoProps
import Verif.Coding.StreamProps

/-!
# C95: which data is decoded to what

Not only the outputs of the encoder: for all data, what the decoder returns is determined by the number the data is.
-/

namespace Verif.Coding

open Verif

/-! ## Specification -/

/-- the data does not begin with one of the two words that no output begins with -/
def Regular (input : List Nat) : Prop := ¬ [255, 255, 255, 254] <+: input ∧ ¬ [255, 255, 255, 255] <+: input

/-! ## Lemmas -/

/-- the interval that contains a single number -/
def point (l : List Nat) : Iv := { low := val l / 2, range := 1, k := l.length - 4 }

theorem inside_point {iv : Iv} {pre post : List Nat} (h : iv.low ≤ val pre / 2 ∧ val pre / 2 < iv.low + iv.range)
    (hk : pre.length = iv.k + 4) (hb : ∀ b ∈ post, b < 256) :
    (point (pre ++ post)).k = iv.k + post.length ∧ iv.low * 256 ^ post.length ≤ (point (pre ++ post)).low ∧
      (point (pre ++ post)).low + 1 ≤ (iv.low + iv.range) * 256 ^ post.length := by
  have hv := val_append pre post
  have hp := val_lt post hb
  refine ⟨by simp only [point, List.length_append]; omega, ?_, ?_⟩
  · simp only [point]
    rw [Nat.le_div_iff_mul_le (by norm_num), hv]
    have : iv.low * 2 * 256 ^ post.length ≤ val pre * 256 ^ post.length := Nat.mul_le_mul_right _ (by omega)
    nlinarith
  · simp only [point]
    have h1 : (val pre + 1) * 256 ^ post.length ≤ (2 * (iv.low + iv.range)) * 256 ^ post.length :=
      Nat.mul_le_mul_right _ (by omega)
    rw [hv]
    have : val pre * 256 ^ post.length + val post < 2 * ((iv.low + iv.range) * 256 ^ post.length) := by nlinarith
    omega

theorem point_even (pre post : List Nat) : val (pre ++ (post ++ [0, 0, 0, 0])) = 2 * (point (pre ++ (post ++ [0, 0, 0, 0]))).low := by
  have : val (pre ++ (post ++ [0, 0, 0, 0])) = val (pre ++ post) * 256 ^ 4 := by
    rw [← List.append_assoc, val_append, show val [0, 0, 0, 0] = 0 by simp [val], Nat.add_zero]
    rfl
  simp only [point]
  omega

/-- one of the two answers keeps a number inside -/
theorem point_select {f iv : Iv} {m d : Nat} (hm : m ≤ iv.range) (hk : f.k = iv.k + d) (hl : iv.low * 256 ^ d ≤ f.low)
    (hu : f.low + f.range ≤ (iv.low + iv.range) * 256 ^ d) (hf : f.range = 1) :
    ∃ v, Inside f (iv.select m v) := by
  by_cases h : f.low < (iv.low + m) * 256 ^ d
  · exact ⟨false, d, hk, hl, by simp only [Iv.select, Bool.false_eq_true, if_false]; omega⟩
  · refine ⟨true, d, hk, ?_, ?_⟩
    · simp only [Iv.select, if_true]; omega
    · simp only [Iv.select, if_true]
      rw [show iv.low + m + (iv.range - m) = iv.low + iv.range by omega]
      exact hu

theorem drep_more {d : Decoder} {iv : Iv} {pre : List Nat} (h : DRep d iv pre) (t : List Nat) : DRep (d.more t) iv pre :=
  ⟨h.hr, h.hr1, h.hb, h.hn, h.hk, h.hin⟩

/-- whatever the decoder answers, the number stays inside -/
theorem any_event {d d' : Decoder} {iv : Iv} {pre : List Nat} {ev : Event} (h : DRep d iv pre) (hv : ev.Valid)
    (hb : ∀ b ∈ d.input, b < 256) (hq : d.query ev.query = some (ev.value, d')) :
    ∃ mid, d.input = mid ++ d'.input ∧ DRep d' (iv.event ev) (pre ++ mid) := by
  let code := d.input ++ [0, 0, 0, 0]
  have hcb : ∀ b ∈ code, b < 256 := by
    intro b hb'
    rcases List.mem_append.mp hb' with hb' | hb'
    · exact hb b hb'
    · simp only [List.mem_cons, List.not_mem_nil, or_false, or_self] at hb'
      omega
  obtain ⟨i1, i2, i3⟩ := inside_point h.hin h.hk hcb
  have hs := shifts_le iv.range
  have hcl : code.length = d.input.length + 4 := by simp [code]
  have hn := norm_range h.hr1
  have e1 : 256 ^ shifts iv.range * 256 ^ (code.length - shifts iv.range) = 256 ^ code.length := by
    rw [← pow_add]
    congr 1
    omega
  have key : ∀ m ≤ iv.norm.range, ∃ v, Inside (point (pre ++ code)) (iv.norm.select m v) := by
    intro m hm
    refine point_select (d := code.length - shifts iv.range) hm ?_ ?_ ?_ rfl
    · rw [i1]
      simp only [Iv.norm, Iv.scale]
      omega
    · simp only [Iv.norm, Iv.scale]
      rw [Nat.mul_assoc, e1]
      exact i2
    · simp only [Iv.norm, Iv.scale]
      rw [← Nat.add_mul, Nat.mul_assoc, e1]
      exact i3
  obtain ⟨ev', hq', hv', hins⟩ : ∃ ev' : Event, ev'.query = ev.query ∧ ev'.Valid ∧ Inside (point (pre ++ code)) (iv.event ev') := by
    cases ev with
    | bit p v =>
      obtain ⟨v', hi⟩ := key (split iv.norm.range p) (split_pos hn.1 hv).2.le
      exact ⟨.bit p v', rfl, hv, hi⟩
    | rare v =>
      obtain ⟨v', hi⟩ := key (iv.norm.range - 1) (by omega)
      exact ⟨.rare v', rfl, trivial, hi⟩
  obtain ⟨d1, mid, code', g1, g2, g3, g4⟩ := drep_event (drep_more h [0, 0, 0, 0]) hv' hins (by simp [point])
    (point_even pre d.input) (show (pre ++ code).length = _ by rw [i1, List.length_append, h.hk]; omega) hcb
    (trail := []) (by simp [Decoder.more])
  have g5 := (reader_query ev.query).more hq [0, 0, 0, 0]
  rw [hq'] at g1
  rw [g5] at g1
  obtain ⟨hval, rfl⟩ := Prod.mk.inj (Option.some.inj g1)
  have hev : ev' = ev := by
    cases ev <;> cases ev' <;> simp_all [Event.query, Event.value]
  subst hev
  rw [List.append_nil] at g3
  refine ⟨mid, ?_, ?_⟩
  · have : d.input ++ [0, 0, 0, 0] = mid ++ d'.input ++ [0, 0, 0, 0] := by
      rw [List.append_assoc]
      exact g2.trans (by rw [← g3]; rfl)
    exact List.append_cancel_right this
  · exact ⟨g4.hr, g4.hr1, g4.hb, g4.hn, g4.hk, g4.hin⟩

theorem any_events : ∀ (evs : List Event) {d d' : Decoder} {iv : Iv} {pre : List Nat}, DRep d iv pre →
    (∀ ev ∈ evs, ev.Valid) → (∀ b ∈ d.input, b < 256) → d.queries (evs.map Event.query) = some (evs.map Event.value, d') →
    ∃ mid, d.input = mid ++ d'.input ∧ DRep d' (iv.events evs) (pre ++ mid)
  | [], d, d', iv, pre, h, _, _, hq => by
    obtain ⟨-, rfl⟩ := Prod.mk.inj (Option.some.inj hq)
    exact ⟨[], rfl, by rw [List.append_nil]; exact h⟩
  | ev :: evs, d, d', iv, pre, h, hv, hb, hq => by
    rw [List.map_cons, List.map_cons, Decoder.queries] at hq
    obtain ⟨⟨v, d1⟩, h1, h2⟩ := Option.bind_eq_some_iff.mp hq
    obtain ⟨⟨vs, d2⟩, h3, h4⟩ := Option.bind_eq_some_iff.mp h2
    obtain ⟨hl, rfl⟩ := Prod.mk.inj (Option.some.inj h4)
    obtain ⟨rfl, rfl⟩ := List.cons.inj hl
    obtain ⟨mid, e1, e2⟩ := any_event h (hv ev (by simp)) hb h1
    obtain ⟨mid', e3, e4⟩ := any_events evs e2 (fun x hx => hv x (by simp [hx]))
      (fun b hb' => hb b (by rw [e1]; exact List.mem_append_right _ hb')) h3
    exact ⟨mid ++ mid', by rw [e1, e3, List.append_assoc], by rw [← List.append_assoc]; exact e4⟩

theorem inside_events {evs : List Event} {d : Decoder} {iv : Iv} {pre mid trail : List Nat} (h : DRep d iv pre)
    (hv : ∀ ev ∈ evs, ev.Valid) (hb : ∀ b ∈ d.input, b < 256) (hin : d.input = mid ++ trail)
    (hk : (pre ++ mid).length = (iv.events evs).k + 4)
    (hi : (iv.events evs).low ≤ val (pre ++ mid) / 2 ∧ val (pre ++ mid) / 2 < (iv.events evs).low + (iv.events evs).range) :
    ∃ d', d.queries (evs.map Event.query) = some (evs.map Event.value, d') ∧ d'.input = trail := by
  have htb : ∀ b ∈ trail ++ [0, 0, 0, 0], b < 256 := by
    intro b hb'
    rcases List.mem_append.mp hb' with hb' | hb'
    · exact hb b (by rw [hin]; exact List.mem_append_right _ hb')
    · simp only [List.mem_cons, List.not_mem_nil, or_false, or_self] at hb'
      omega
  obtain ⟨i1, i2, i3⟩ := inside_point hi hk htb
  have hassoc : pre ++ mid ++ (trail ++ [0, 0, 0, 0]) = pre ++ (mid ++ (trail ++ [0, 0, 0, 0])) := List.append_assoc _ _ _
  rw [hassoc] at i1 i2 i3
  obtain ⟨d1, mid1, code1, g1, g2, g3, g4⟩ := drep_part evs (drep_more h [0, 0, 0, 0]) hv ⟨_, i1, i2, i3⟩ (le_refl 1)
    (code := mid ++ (trail ++ [0, 0, 0, 0])) (trail := [])
    (by rw [← hassoc]; exact point_even _ _)
    (by simp only [point, List.length_append] at hk ⊢; have := h.hk; omega)
    (fun b hb' => by
      rcases List.mem_append.mp hb' with hb' | hb'
      · exact hb b (by rw [hin]; exact List.mem_append_left _ hb')
      · exact htb b hb')
    (by simp only [Decoder.more, hin, List.append_assoc, List.append_nil])
  have hlen : mid1.length = mid.length := by
    have := g4.hk
    simp only [List.length_append] at this hk
    omega
  obtain ⟨rfl, rfl⟩ := List.append_inj g2 hlen.symm
  rw [List.append_nil] at g3
  cases hd : d.queries (evs.map Event.query) with
  | none =>
    have := (reader_queries (evs.map Event.query)).short hd [0, 0, 0, 0] _ _ g1
    rw [g3, List.length_append] at this
    simp only [List.length_cons, List.length_nil] at this
    omega
  | some r =>
    obtain ⟨vs, d2⟩ := r
    have := (reader_queries (evs.map Event.query)).more hd [0, 0, 0, 0]
    rw [g1] at this
    obtain ⟨rfl, rfl⟩ := Prod.mk.inj (Option.some.inj this)
    exact ⟨d2, rfl, List.append_cancel_right g3⟩

/-- starting the decoder -/
theorem regular_new {input : List Nat} (hb : ∀ b ∈ input, b < 256) (hr : Regular input) (hl : 4 ≤ input.length) :
    ∃ pre rest d, input = pre ++ rest ∧ Decoder.new input = some d ∧ d.input = rest ∧ DRep d Iv.init pre := by
  match input, hl, hb, hr with
  | b0 :: b1 :: b2 :: b3 :: rest, _, hb, hr =>
    have h0 := hb b0 (by simp)
    have h1 := hb b1 (by simp)
    have h2 := hb b2 (by simp)
    have h3 := hb b3 (by simp)
    have hval : val [b0, b1, b2, b3] = ((b0 * 256 + b1) * 256 + b2) * 256 + b3 := by simp [val]
    obtain ⟨d, hd, hdi, hdr⟩ := drep_new (rest := rest) h0 h1 h2 h3 (by
      rw [hval]
      by_contra hc
      have : b0 = 255 ∧ b1 = 255 ∧ b2 = 255 ∧ (b3 = 254 ∨ b3 = 255) := by omega
      obtain ⟨rfl, rfl, rfl, rfl | rfl⟩ := this
      · exact hr.1 ⟨rest, rfl⟩
      · exact hr.2 ⟨rest, rfl⟩)
    exact ⟨[b0, b1, b2, b3], rest, d, rfl, hd, hdi, hdr⟩

theorem shift_takes {d d' : Decoder} (h : d.shiftIn = some d') : d.input.length = d'.input.length + 1 := by
  obtain ⟨input, b, r, n⟩ := d
  cases input with
  | nil => simp [Decoder.shiftIn, Decoder.inputByte] at h
  | cons x rest =>
    unfold Decoder.shiftIn Decoder.inputByte at h
    simp only [Option.bind_eq_bind, Option.bind_some] at h
    obtain ⟨v, -, h⟩ := Option.bind_eq_some_iff.mp h
    obtain rfl := Option.some.inj h
    rfl

theorem new_four {input : List Nat} {d : Decoder} (h : Decoder.new input = some d) : 4 ≤ input.length := by
  unfold Decoder.new at h
  obtain ⟨d1, e1, h⟩ := Option.bind_eq_some_iff.mp h
  obtain ⟨d2, e2, h⟩ := Option.bind_eq_some_iff.mp h
  obtain ⟨d3, e3, h⟩ := Option.bind_eq_some_iff.mp h
  have h1 := shift_takes e1
  have h2 := shift_takes e2
  have h3 := shift_takes e3
  have h4 := shift_takes h
  dsimp only at h1
  omega

/-- what the answers mean -/
theorem decode_iff (evs : List Event) (hv : ∀ ev ∈ evs, ev.Valid) {input : List Nat} (hb : ∀ b ∈ input, b < 256)
    (hr : Regular input) (rest : List Nat) :
    (∃ d, decode input (evs.map Event.query) = some (evs.map Event.value, d) ∧ d.input = rest) ↔
    ∃ used, input = used ++ rest ∧ used.length = emitted evs + 4 ∧ (Iv.init.events evs).low ≤ val used / 2 ∧
      val used / 2 < (Iv.init.events evs).low + (Iv.init.events evs).range := by
  constructor
  · rintro ⟨d, hd, rfl⟩
    unfold decode at hd
    obtain ⟨d0, h0, hq⟩ := Option.bind_eq_some_iff.mp hd
    obtain ⟨pre, rest, d1, rfl, e2, e3, e4⟩ := regular_new hb hr (new_four h0)
    rw [h0] at e2
    obtain rfl := Option.some.inj e2
    obtain ⟨mid, g1, g2⟩ := any_events evs e4 hv (fun b hb' => hb b (by rw [← e3]; exact List.mem_append_right _ hb')) hq
    exact ⟨pre ++ mid, by rw [← e3, g1, List.append_assoc], g2.hk, g2.hin⟩
  · rintro ⟨used, rfl, hl, hi⟩
    obtain ⟨pre, rest', d1, e1, e2, e3, e4⟩ := regular_new hb hr (by rw [List.length_append]; omega)
    have hp : pre <+: used := List.prefix_of_prefix_length_le ⟨rest', e1.symm⟩ (List.prefix_append _ _) (by
      rw [e4.hk, hl]; simp [Iv.init])
    obtain ⟨mid, rfl⟩ := hp
    rw [List.append_assoc] at e1
    have e5 := List.append_cancel_left e1
    obtain ⟨d', g1, g2⟩ := inside_events (mid := mid) (trail := rest) e4 hv
      (fun b hb' => hb b (by rw [List.append_assoc, e5, ← e3]; exact List.mem_append_right _ hb')) (by rw [e3, e5]) hl hi
    exact ⟨d', by rw [decode, e2, ob_some]; exact g1, g2⟩

/-- different answers, intervals apart -/
theorem below_apart : ∀ {evs evs' : List Event}, Below evs evs' → ∀ {iv : Iv}, 1 ≤ iv.range ∧ iv.range < 2 ^ 31 →
    (∀ ev ∈ evs, ev.Valid) → (∀ ev ∈ evs', ev.Valid) →
    ((iv.events evs).low + (iv.events evs).range) * 256 ^ (iv.events evs').k ≤ (iv.events evs').low * 256 ^ (iv.events evs).k := by
  intro evs evs' h
  induction h with
  | @here a b as bs hq ha hb =>
    intro iv hr hv hv'
    obtain ⟨⟨d, i1, i2, i3⟩, i4⟩ := Inside.events as (event_range hr (hv a (by simp))) fun x hx => hv x (by simp [hx])
    obtain ⟨⟨d', j1, j2, j3⟩, j4⟩ := Inside.events bs (event_range hr (hv' b (by simp))) fun x hx => hv' x (by simp [hx])
    have hk : (iv.event a).k = (iv.event b).k := by rw [Iv.event_k, Iv.event_k]
    have hlow : (iv.event a).low + (iv.event a).range = (iv.event b).low := by
      cases a <;> cases b <;> simp only [Event.query, Query.bit.injEq, reduceCtorEq] at hq <;>
        simp only [Event.value] at ha hb <;> subst ha <;> subst hb
      · subst hq
        rfl
      · rfl
    simp only [Iv.events]
    generalize ((iv.event a).events as) = f at *
    generalize ((iv.event b).events bs) = g at *
    rw [hlow] at i3
    rw [i1, j1, hk, pow_add, pow_add]
    generalize (iv.event b).low = m at *
    calc (f.low + f.range) * (256 ^ (iv.event b).k * 256 ^ d') ≤ m * 256 ^ d * (256 ^ (iv.event b).k * 256 ^ d') :=
          Nat.mul_le_mul_right _ i3
      _ = (m * 256 ^ d') * (256 ^ (iv.event b).k * 256 ^ d) := by ring
      _ ≤ g.low * (256 ^ (iv.event b).k * 256 ^ d) := Nat.mul_le_mul_right _ j2
  | there a h ih =>
    intro iv hr hv hv'
    exact ih (event_range hr (hv a (by simp))) (fun x hx => hv x (by simp [hx])) fun x hx => hv' x (by simp [hx])

theorem lt_of_apart {a b x y : List Nat} (ha : ∀ c ∈ a ++ x, c < 256) (hb : ∀ c ∈ b ++ y, c < 256)
    (h : (val a + 1) * 256 ^ b.length ≤ val b * 256 ^ a.length) : a ++ x < b ++ y := by
  refine lt_of_val _ _ ha hb ?_
  have hx := val_lt x fun c hc => ha c (List.mem_append_right _ hc)
  rw [val_append, val_append, List.length_append, List.length_append, pow_add, pow_add]
  have h1 : (val a * 256 ^ x.length + val x) * (256 ^ b.length * 256 ^ y.length) <
      ((val a + 1) * 256 ^ x.length) * (256 ^ b.length * 256 ^ y.length) :=
    Nat.mul_lt_mul_of_pos_right (by nlinarith) (by positivity)
  calc _ < ((val a + 1) * 256 ^ x.length) * (256 ^ b.length * 256 ^ y.length) := h1
    _ = ((val a + 1) * 256 ^ b.length) * (256 ^ x.length * 256 ^ y.length) := by ring
    _ ≤ (val b * 256 ^ a.length) * (256 ^ x.length * 256 ^ y.length) := Nat.mul_le_mul_right _ h
    _ = (val b * 256 ^ y.length) * (256 ^ a.length * 256 ^ x.length) := by ring
    _ ≤ _ := Nat.mul_le_mul_right _ (by omega)

theorem decodeWith_trace {σ : Type} (m : BitModel σ) : ∀ (n : Nat) (s : σ) (d d' : Decoder) (bs : List Bool),
    decodeWith m s d n = some (bs, d') →
    bs.length = n ∧ d.queries ((trace m s bs).map Event.query) = some ((trace m s bs).map Event.value, d')
  | 0, s, d, d', bs, h => by
    obtain ⟨rfl, rfl⟩ := Prod.mk.inj (Option.some.inj h)
    exact ⟨rfl, rfl⟩
  | n + 1, s, d, d', bs, h => by
    rw [decodeWith] at h
    obtain ⟨⟨b, d1⟩, h1, h⟩ := Option.bind_eq_some_iff.mp h
    obtain ⟨⟨bs1, d2⟩, h2, h⟩ := Option.bind_eq_some_iff.mp h
    obtain ⟨rfl, rfl⟩ := Prod.mk.inj (Option.some.inj h)
    obtain ⟨i1, i2⟩ := decodeWith_trace m n _ _ _ _ h2
    refine ⟨by rw [List.length_cons, i1], ?_⟩
    simp only [trace, List.map_cons, Event.query, Event.value, Decoder.queries, Decoder.query, Option.bind_eq_bind, h1,
      Option.bind_some, i2]

/-! ## Theorems -/

/-- **C95 (exact set of data).** The data that is decoded to given values, with a given rest left unread, is exactly the data
whose used part has the length of the encoder's output and, as a number, lies in an interval that begins with the
output. In particular the output of the encoder is the smallest such data. -/
theorem C95_exact (evs : List Event) (hv : ∀ ev ∈ evs, ev.Valid) {out : List Nat} (he : encode evs = some out) :
    ∃ width, 2 ≤ width ∧ width < 2 ^ 32 ∧ ∀ input, (∀ b ∈ input, b < 256) → Regular input → ∀ rest,
      ((∃ d, decode input (evs.map Event.query) = some (evs.map Event.value, d) ∧ d.input = rest) ↔
        ∃ used, input = used ++ rest ∧ used.length = out.length ∧ val out ≤ val used ∧ val used < val out + width) := by
  obtain ⟨v, l, -⟩ := encode_val_any hv he
  have hr := events_range evs (iv := Iv.init) (by simp [Iv.init]) hv
  refine ⟨2 * (Iv.init.events evs).range, by omega, by omega, fun input hb hreg rest => ?_⟩
  rw [decode_iff evs hv hb hreg rest, v, l]
  constructor
  · rintro ⟨used, h1, h2, h3, h4⟩
    exact ⟨used, h1, h2, by omega, by omega⟩
  · rintro ⟨used, h1, h2, h3, h4⟩
    exact ⟨used, h1, h2, by omega, by omega⟩

/-- **C95 (outputs are regular).** The output of the encoder never begins with 0xfffffffe or 0xffffffff. -/
theorem C95_regular (evs : List Event) (hv : ∀ ev ∈ evs, ev.Valid) {out : List Nat} (he : encode evs = some out) (trail : List Nat) :
    Regular (out ++ trail) := by
  obtain ⟨v, l, hb⟩ := encode_val_any hv he
  obtain ⟨hi, hr⟩ := Inside.events evs (iv := Iv.init) (by simp [Iv.init]) hv
  match out, v, l, hb with
  | b0 :: b1 :: b2 :: b3 :: rest, v, l, hb =>
    have h := (code_inside hi hr (pre := [b0, b1, b2, b3]) (post := rest) v rfl l (fun b hb' => hb b (by simp [hb']))).2
    have hval : val [b0, b1, b2, b3] = ((b0 * 256 + b1) * 256 + b2) * 256 + b3 := by simp [val]
    rw [hval] at h
    simp only [Iv.init] at h
    constructor
    · intro hp
      simp only [List.cons_append, List.cons_prefix_cons] at hp
      obtain ⟨rfl, rfl, rfl, rfl, -⟩ := hp
      omega
    · intro hp
      simp only [List.cons_append, List.cons_prefix_cons] at hp
      obtain ⟨rfl, rfl, rfl, rfl, -⟩ := hp
      omega

/-- **C95 (order of data).** If two pieces of data, compressed or not, are decoded to values that first differ in an answer, then
the data answered by no there is the smaller one. -/
theorem C95_order {evs evs' : List Event} (h : Below evs evs') (hv : ∀ ev ∈ evs, ev.Valid) (hv' : ∀ ev ∈ evs', ev.Valid)
    {input input' : List Nat} (hb : ∀ b ∈ input, b < 256) (hb' : ∀ b ∈ input', b < 256) (hr : Regular input)
    (hr' : Regular input') {d d' : Decoder} (hd : decode input (evs.map Event.query) = some (evs.map Event.value, d))
    (hd' : decode input' (evs'.map Event.query) = some (evs'.map Event.value, d')) : input < input' := by
  obtain ⟨used, rfl, e2, e3, e4⟩ := (decode_iff evs hv hb hr d.input).mp ⟨d, hd, rfl⟩
  obtain ⟨used', rfl, e2', e3', e4'⟩ := (decode_iff evs' hv' hb' hr' d'.input).mp ⟨d', hd', rfl⟩
  refine lt_of_apart hb hb' ?_
  have := below_apart h (iv := Iv.init) (by simp [Iv.init]) hv hv'
  unfold emitted at e2 e2'
  rw [e2, e2', pow_add, pow_add]
  calc (val used + 1) * (256 ^ (Iv.init.events evs').k * 256 ^ 4)
      ≤ (2 * ((Iv.init.events evs).low + (Iv.init.events evs).range)) * (256 ^ (Iv.init.events evs').k * 256 ^ 4) :=
        Nat.mul_le_mul_right _ (by omega)
    _ = ((Iv.init.events evs).low + (Iv.init.events evs).range) * 256 ^ (Iv.init.events evs').k * (2 * 256 ^ 4) := by ring
    _ ≤ (Iv.init.events evs').low * 256 ^ (Iv.init.events evs).k * (2 * 256 ^ 4) := Nat.mul_le_mul_right _ this
    _ = (2 * (Iv.init.events evs').low) * (256 ^ (Iv.init.events evs).k * 256 ^ 4) := by ring
    _ ≤ _ := Nat.mul_le_mul_right _ (by omega)

/-- **C95 (any model, order of data).** Whatever deterministic model supplies the probabilities: decoding the same number of bits
from any data, greater data is never decoded to a smaller sequence of bits. -/
theorem C95_monotone {σ : Type} (m : BitModel σ) (s : σ) (n : Nat) {input input' : List Nat} (hb : ∀ b ∈ input, b < 256)
    (hb' : ∀ b ∈ input', b < 256) (hr : Regular input) (hr' : Regular input') {bits bits' : List Bool} {d d' : Decoder}
    (h : (Decoder.new input).bind (decodeWith m s · n) = some (bits, d))
    (h' : (Decoder.new input').bind (decodeWith m s · n) = some (bits', d')) (hle : ¬ input' < input) : ¬ bits' < bits := by
  obtain ⟨d0, e1, e2⟩ := Option.bind_eq_some_iff.mp h
  obtain ⟨d0', e1', e2'⟩ := Option.bind_eq_some_iff.mp h'
  obtain ⟨l, q⟩ := decodeWith_trace m n s _ _ _ e2
  obtain ⟨l', q'⟩ := decodeWith_trace m n s _ _ _ e2'
  intro hlt
  refine hle (C95_order (trace_below m bits' bits s hlt fun hp => ?_) (trace_valid m s _) (trace_valid m s _) hb' hb hr' hr
    (d := d') (d' := d) ?_ ?_)
  · rw [hp.eq_of_length (by omega)] at hlt
    exact List.lt_irrefl _ hlt
  · rw [decode, e1', ob_some, q']
  · rw [decode, e1, ob_some, q]

/-- **C95 (damage).** Let the output of some events and further events be damaged behind the length that the output of the first
events alone has, in any way. Then the first events are still decoded, and the decoder stands at the place of that length. -/
theorem C95_damage {evs more : List Event} (hv : ∀ ev ∈ evs ++ more, ev.Valid) {first out : List Nat}
    (hf : encode evs = some first) (h : encode (evs ++ more) = some out) (rest : List Nat) :
    first.length ≤ out.length ∧ out.length ≤ first.length + 3 * more.length ∧
    ∃ d, decode (out.take first.length ++ rest) (evs.map Event.query) = some (evs.map Event.value, d) ∧ d.input = rest := by
  have hl : first.length = 4 + emitted evs := by
    rw [(encode_val_any (fun x hx => hv x (by simp [hx])) hf).2.1, emitted, Nat.add_comm]
  obtain ⟨h1, d, h2, h3⟩ := C90_ahead hv h []
  rw [List.append_nil] at h2 h3
  refine ⟨by omega, ?_, ?_⟩
  · have key : ∀ (l : List Event) (iv : Iv), (iv.events l).k ≤ iv.k + 3 * l.length := by
      intro l
      induction l with
      | nil => intro iv; simp [Iv.events]
      | cons x l ih =>
        intro iv
        have := ih (iv.event x)
        rw [Iv.event_k] at this
        have hs := shifts_le iv.range
        simp only [Iv.norm, Iv.scale] at this
        rw [Iv.events, List.length_cons]
        omega
    have k := key more (Iv.init.events evs)
    rw [← events_append_iv] at k
    have l := (encode_val_any hv h).2.1
    unfold emitted at hl
    omega
  · rw [hl]
    cases hd : decode (out.take (4 + emitted evs)) (evs.map Event.query) with
    | none =>
      rw [decode_eq] at hd
      have := (decode_reader (evs.map Event.query)).short hd (out.drop (4 + emitted evs)) (evs.map Event.value) d (by
        rw [← List.take_append_drop (4 + emitted evs) out, decode_eq, List.take_append_drop] at h2
        simp only [Decoder.more, List.take_append_drop]
        exact h2)
      rw [h3] at this
      omega
    | some r =>
      obtain ⟨vs, d1⟩ := r
      have h4 := C05_prefix _ _ _ _ hd (out.drop (4 + emitted evs))
      rw [List.take_append_drop, h2] at h4
      obtain ⟨rfl, rfl⟩ := Prod.mk.inj (Option.some.inj h4)
      have h5 : d1.input = [] := List.append_cancel_right (h3.trans (List.nil_append _).symm)
      refine ⟨_, C05_prefix _ _ _ _ hd rest, ?_⟩
      simp only [h5, List.nil_append]

/-- **C95 (irregular data).** The restriction is needed: data that begins with 0xffffffff can be decoded to smaller values than
smaller data. -/
theorem C95_irregular : ∃ (qs : List Query) (input input' : List Nat) (vs vs' : List Bool), (∀ q ∈ qs, q.Valid) ∧
    (∀ b ∈ input ++ input', b < 256) ∧ input < input' ∧ Regular input ∧ ¬ Regular input' ∧
    (decode input qs).map (·.1) = some vs ∧ (decode input' qs).map (·.1) = some vs' ∧ vs' < vs :=
  ⟨[.bit 8388607, .bit 4194305, .bit 4194304], [255, 255, 255, 253, 255, 255, 255, 255], [255, 255, 255, 255, 255, 255, 255, 255],
    [true, true, true], [true, true, false], by simp [Query.Valid], by decide, by decide, by constructor <;> decide,
    fun h => h.2 (by decide), by decide +kernel, by decide +kernel, by decide⟩

/-- the hypotheses: the output of the example of C01, and data with the same answers that no encoder writes -/
example : encode [.bit 4194304 true, .bit 1 false, .bit 4194304 true, .rare true] = some [128, 0, 0, 253, 255, 255, 254] ∧
    Regular [128, 0, 0, 253, 255, 255, 255, 7] ∧
    (decode [128, 0, 0, 253, 255, 255, 255, 7] [.bit 4194304, .bit 1, .bit 4194304, .rare]).map (·.1) =
      some [true, false, true, true] := by
  refine ⟨by decide +kernel, by constructor <;> decide, by decide +kernel⟩

end Verif.Coding
