import Verif.Coding.Props

/-!
# C83: coding preserves the order

Outputs are compared as lists of bytes, in the lexicographic order of Lean's lists.
-/

namespace Verif.Coding

/-! ## Specification -/

/-- Up to some place the lists are the same; there the same question is answered by no in the first and by yes in the
second list. What follows is arbitrary. -/
inductive Below : List Event → List Event → Prop
  | here {a b : Event} {as bs : List Event} (hq : a.query = b.query) (ha : a.value = false) (hb : b.value = true) :
    Below (a :: as) (b :: bs)
  | there (a : Event) {as bs : List Event} (h : Below as bs) : Below (a :: as) (a :: bs)

/-! ## Lists of digits -/

theorem val_cons (x : Nat) (l : List Nat) : val (x :: l) = x * 256 ^ l.length + val l := by
  rw [show x :: l = [x] ++ l from rfl, val_append]
  simp [val]

theorem lt_of_val : ∀ (a b : List Nat), (∀ x ∈ a, x < 256) → (∀ x ∈ b, x < 256) →
    val a * 256 ^ b.length < val b * 256 ^ a.length → a < b
  | a, [], _, _, h => by simp [val] at h
  | [], y :: b, _, _, _ => List.nil_lt_cons y b
  | x :: a, y :: b, ha, hb, h => by
    have ih := lt_of_val a b (fun z hz => ha z (by simp [hz])) (fun z hz => hb z (by simp [hz]))
    have v1 := val_lt a fun z hz => ha z (by simp [hz])
    have v2 := val_lt b fun z hz => hb z (by simp [hz])
    rw [val_cons, val_cons, List.length_cons, List.length_cons, pow_succ, pow_succ] at h
    rw [List.cons_lt_cons_iff]
    generalize hA : 256 ^ a.length = A at *
    generalize hB : 256 ^ b.length = B at *
    generalize val a = s at *
    generalize val b = t at *
    rcases lt_trichotomy x y with hx | rfl | hx
    · exact .inl hx
    · refine .inr ⟨rfl, ih ?_⟩
      have h1 : (x * A * B + s * B) * 256 < (x * A * B + t * A) * 256 := by nlinarith
      omega
    · exfalso
      have h1 : (x * (A * B) + s * B) * 256 < (y * (A * B) + t * A) * 256 := by nlinarith
      have h2 : t * A ≤ B * A := Nat.mul_le_mul_right _ v2.le
      have h3 : (y + 1) * (A * B) ≤ x * (A * B) := Nat.mul_le_mul_right _ hx
      have h4 : B * A = A * B := Nat.mul_comm _ _
      rw [Nat.add_mul, Nat.one_mul] at h3
      omega

theorem le_of_val : ∀ (a b : List Nat), (∀ x ∈ a, x < 256) → (∀ x ∈ b, x < 256) → a.length ≤ b.length →
    val a * 256 ^ b.length ≤ val b * 256 ^ a.length → a ≤ b
  | [], b, _, _, _, _ => List.nil_le b
  | x :: a, [], _, _, hl, _ => by simp at hl
  | x :: a, y :: b, ha, hb, hl, h => by
    have ih := le_of_val a b (fun z hz => ha z (by simp [hz])) (fun z hz => hb z (by simp [hz])) (by simpa using hl)
    have v2 := val_lt b fun z hz => hb z (by simp [hz])
    rw [val_cons, val_cons, List.length_cons, List.length_cons, pow_succ, pow_succ] at h
    rw [List.cons_le_cons_iff]
    have pA : 0 < 256 ^ a.length := by positivity
    generalize hA : 256 ^ a.length = A at *
    generalize hB : 256 ^ b.length = B at *
    generalize val a = s at *
    generalize val b = t at *
    rcases lt_trichotomy x y with hx | rfl | hx
    · exact .inl hx
    · refine .inr ⟨rfl, ih ?_⟩
      have h1 : (x * A * B + s * B) * 256 ≤ (x * A * B + t * A) * 256 := by nlinarith
      omega
    · exfalso
      have h1 : (x * (A * B) + s * B) * 256 ≤ (y * (A * B) + t * A) * 256 := by nlinarith
      have h2 : t * A < B * A := Nat.mul_lt_mul_of_pos_right v2 pA
      have h3 : (y + 1) * (A * B) ≤ x * (A * B) := Nat.mul_le_mul_right _ hx
      have h4 : B * A = A * B := Nat.mul_comm _ _
      rw [Nat.add_mul, Nat.one_mul] at h3
      omega

/-! ## Intervals -/

theorem events_append_iv (iv : Iv) (evs evs' : List Event) : iv.events (evs ++ evs') = (iv.events evs).events evs' := by
  induction evs generalizing iv with
  | nil => rfl
  | cons ev evs ih => exact ih _

/-- an interval below another one, and what is inside them -/
theorem below_iv : ∀ {evs evs' : List Event}, Below evs evs' → ∀ {iv : Iv}, 1 ≤ iv.range ∧ iv.range < 2 ^ 31 →
    (∀ ev ∈ evs, ev.Valid) → (∀ ev ∈ evs', ev.Valid) →
    (iv.events evs).low * 256 ^ (iv.events evs').k < (iv.events evs').low * 256 ^ (iv.events evs).k := by
  intro evs evs' h
  induction h with
  | @here a b as bs hq ha hb =>
    intro iv hr hv hv'
    obtain ⟨⟨d, i1, i2, i3⟩, i4⟩ := Inside.events as (event_range hr (hv a (by simp))) fun x hx => hv x (by simp [hx])
    obtain ⟨⟨d', j1, j2, j3⟩, j4⟩ := Inside.events bs (event_range hr (hv' b (by simp))) fun x hx => hv' x (by simp [hx])
    have hk : (iv.event a).k = (iv.event b).k := by rw [Iv.event_k, Iv.event_k]
    have hlow : (iv.event a).low + (iv.event a).range = (iv.event b).low := by
      cases a <;> cases b <;> simp only [Event.query, Query.bit.injEq, reduceCtorEq] at hq <;>
        simp only [Event.value] at ha hb <;> subst ha <;> subst hb
      · subst hq
        rfl
      · rfl
    simp only [Iv.events]
    generalize ((iv.event a).events as) = f at *
    generalize ((iv.event b).events bs) = g at *
    rw [hlow] at i3
    rw [i1, j1, hk, pow_add, pow_add]
    generalize (iv.event b).low = m at *
    have h1 : f.low < m * 256 ^ d := by omega
    have p1 : 0 < 256 ^ d' := by positivity
    have p2 : 0 < 256 ^ (iv.event b).k := by positivity
    calc f.low * (256 ^ (iv.event b).k * 256 ^ d') < m * 256 ^ d * (256 ^ (iv.event b).k * 256 ^ d') :=
          Nat.mul_lt_mul_of_pos_right h1 (by positivity)
      _ = (m * 256 ^ d') * (256 ^ (iv.event b).k * 256 ^ d) := by ring
      _ ≤ g.low * (256 ^ (iv.event b).k * 256 ^ d) := Nat.mul_le_mul_right _ j2
  | there a h ih =>
    intro iv hr hv hv'
    exact ih (event_range hr (hv a (by simp))) (fun x hx => hv x (by simp [hx])) fun x hx => hv' x (by simp [hx])

theorem encode_val (evs : List Event) (hv : ∀ ev ∈ evs, ev.Valid) (hlen : emitted evs + 5 < 2 ^ 31) :
    ∃ out, encode evs = some out ∧ val out = 2 * (Iv.init.events evs).low ∧ out.length = (Iv.init.events evs).k + 4 ∧
      ∀ b ∈ out, b < 256 := by
  obtain ⟨e, he, hrep⟩ := rep_events evs rep_new hv (by unfold emitted at hlen; omega)
  obtain ⟨out, hf, h⟩ := finish_spec hrep hlen
  exact ⟨out, by simp [encode, he, hf], h⟩

/-! ## Theorems -/

/-- **C83.** If two sequences of events first differ in an answer, then the one that answers no there is written as the
smaller list of bytes. -/
theorem C83_events {evs evs' : List Event} (h : Below evs evs') (hv : ∀ ev ∈ evs, ev.Valid)
    (hv' : ∀ ev ∈ evs', ev.Valid) (hlen : emitted evs + 5 < 2 ^ 31) (hlen' : emitted evs' + 5 < 2 ^ 31) :
    ∃ out out', encode evs = some out ∧ encode evs' = some out' ∧ out < out' := by
  obtain ⟨out, e, v, l, b⟩ := encode_val evs hv hlen
  obtain ⟨out', e', v', l', b'⟩ := encode_val evs' hv' hlen'
  refine ⟨out, out', e, e', lt_of_val out out' b b' ?_⟩
  have := below_iv h (iv := Iv.init) (by simp [Iv.init]) hv hv'
  rw [v, v', l, l', pow_add, pow_add]
  nlinarith

/-- **C83 (prefix).** Coding more events never makes the output smaller. -/
theorem C83_prefix (evs more : List Event) (hv : ∀ ev ∈ evs ++ more, ev.Valid)
    (hlen : emitted (evs ++ more) + 5 < 2 ^ 31) :
    ∃ out out', encode evs = some out ∧ encode (evs ++ more) = some out' ∧ ¬ out' < out ∧ out.length ≤ out'.length := by
  have hvs : ∀ ev ∈ evs, ev.Valid := fun x hx => hv x (by simp [hx])
  have hm : (Iv.init.events (evs ++ more)) = (Iv.init.events evs).events more := events_append_iv _ _ _
  have hr : 1 ≤ (Iv.init.events evs).range ∧ (Iv.init.events evs).range < 2 ^ 31 := by
    obtain ⟨e, he, hrep⟩ := rep_events evs rep_new hvs (by
      have := Iv.k_le_events (Iv.init.events evs) more
      unfold emitted at hlen
      rw [hm] at hlen
      omega)
    exact hrep.hr1
  obtain ⟨⟨d, i1, i2, -⟩, -⟩ := Inside.events more hr fun x hx => hv x (by simp [hx])
  have hle : emitted evs + 5 < 2 ^ 31 := by
    unfold emitted at hlen ⊢
    rw [hm] at hlen
    omega
  obtain ⟨out, e, v, l, b⟩ := encode_val evs hvs hle
  obtain ⟨out', e', v', l', b'⟩ := encode_val (evs ++ more) hv hlen
  rw [hm] at v' l'
  refine ⟨out, out', e, e', le_of_val out out' b b' (by omega) ?_, by omega⟩
  rw [v, v', l, l', i1]
  calc 2 * (Iv.init.events evs).low * 256 ^ ((Iv.init.events evs).k + d + 4)
      = 2 * ((Iv.init.events evs).low * 256 ^ d) * 256 ^ ((Iv.init.events evs).k + 4) := by ring
    _ ≤ _ := by gcongr

/-- the sequences of answers decide about the order of the events of an adaptive client -/
theorem trace_below {σ : Type} (m : BitModel σ) : ∀ (bits bits' : List Bool) (s : σ), bits < bits' →
    ¬ bits <+: bits' → Below (trace m s bits) (trace m s bits')
  | [], _, _, _, hp => absurd (List.nil_prefix) hp
  | _ :: _, [], _, h, _ => absurd h (List.not_lt_nil _)
  | b :: bits, b' :: bits', s, h, hp => by
    rw [List.cons_lt_cons_iff] at h
    rcases h with h | ⟨rfl, h⟩
    · obtain ⟨rfl, rfl⟩ := Bool.lt_iff.mp h
      exact .here rfl rfl rfl
    · exact .there _ (trace_below m bits bits' _ h fun hq => hp ((List.cons_prefix_cons).mpr ⟨rfl, hq⟩))

/-- **C83 (any model).** Whatever deterministic model supplies the probabilities: of two sequences of bits of the same
length the smaller one has the smaller output, and the other way round. -/
theorem C83_adaptive {σ : Type} (m : BitModel σ) (s : σ) (bits bits' : List Bool) (hlen : bits.length ≤ 700000000)
    (hl : bits'.length = bits.length) :
    ∃ out out', (encodeWith m s Encoder.new bits).bind Encoder.finish = some out ∧
      (encodeWith m s Encoder.new bits').bind Encoder.finish = some out' ∧ (out < out' ↔ bits < bits') := by
  have key : ∀ x y : List Bool, x.length ≤ 700000000 → y.length = x.length → x < y →
      ∃ out out', encode (trace m s x) = some out ∧ encode (trace m s y) = some out' ∧ out < out' := by
    intro x y h1 h2 h3
    refine C83_events (trace_below m x y s h3 ?_) (trace_valid m s x) (trace_valid m s y) ?_ ?_
    · intro hp
      rw [hp.eq_of_length h2.symm] at h3
      exact List.lt_irrefl _ h3
    · have := emitted_le (trace m s x)
      rw [trace_length] at this
      omega
    · have := emitted_le (trace m s y)
      rw [trace_length] at this
      omega
  have tot : ∀ x : List Bool, x.length ≤ 700000000 → ∃ out, encode (trace m s x) = some out := by
    intro x h
    obtain ⟨out, e, -⟩ := encode_val (trace m s x) (trace_valid m s x) (by
      have := emitted_le (trace m s x)
      rw [trace_length] at this
      omega)
    exact ⟨out, e⟩
  obtain ⟨out, e⟩ := tot bits hlen
  obtain ⟨out', e'⟩ := tot bits' (by omega)
  refine ⟨out, out', ?_, ?_, ?_⟩
  · rw [encodeWith_eq]; exact e
  · rw [encodeWith_eq]; exact e'
  · constructor
    · intro h
      by_contra hn
      rcases List.le_iff_lt_or_eq.mp (List.not_lt.mp hn) with h1 | rfl
      · obtain ⟨o', o, e1, e2, h2⟩ := key bits' bits (by omega) hl.symm h1
        rw [e] at e2; rw [e'] at e1
        obtain rfl := Option.some.inj e1
        obtain rfl := Option.some.inj e2
        exact List.lt_asymm h h2
      · rw [e] at e'
        obtain rfl := Option.some.inj e'
        exact List.lt_irrefl _ h
    · intro h
      obtain ⟨o, o', e1, e2, h2⟩ := key bits bits' hlen hl h
      rw [e] at e1; rw [e'] at e2
      obtain rfl := Option.some.inj e1
      obtain rfl := Option.some.inj e2
      exact h2

/-- the first difference decides, also against the carry of a later event -/
example : Below [.bit 4194304 false, .rare true] [.bit 4194304 true, .bit 1 false] := .here rfl rfl rfl

example : (encode [.bit 4194304 false, .rare true], encode [.bit 4194304 true, .bit 1 false]) =
    (some [127, 255, 255, 252], some [127, 255, 255, 254]) := by decide +kernel

end Verif.Coding
