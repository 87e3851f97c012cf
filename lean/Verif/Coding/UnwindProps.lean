import Verif.Coding.Unwind
import Verif.Coding.IoProps

/-!
# C92: what a failing writer leaves behind

The encoder unwraps the result of every write and writes again when it is dropped. A refused byte never goes unnoticed; a full device
holds exactly the beginning of the output, and the process is aborted if the device was full before the end of the events; but a
device that fails only once can be left with bytes that are not the beginning of the output.
-/

namespace Verif.Coding

open Verif

variable {σ : Type}

/-! ## Specification -/

/-- the writer is offered the bytes one after the other until it refuses one; its state then, and whether it took all -/
def offers (write : σ → Nat → σ × Bool) (w : σ) : List Nat → σ × Bool
  | [] => (w, true)
  | b :: bs => if (write w b).2 then offers write (write w b).1 bs else ((write w b).1, false)

/-- a device with room for `n` more bytes, which holds what it was given -/
def fullDevice (s : List Nat × Nat) (b : Nat) : (List Nat × Nat) × Bool :=
  if s.2 = 0 then (s, false) else ((s.1 ++ [b], s.2 - 1), true)

/-- a device that counts its calls and refuses those of a schedule -/
def scheduled (fails : Nat → Bool) (s : List Nat × Nat) (b : Nat) : (List Nat × Nat) × Bool :=
  if fails s.2 then ((s.1, s.2 + 1), false) else ((s.1 ++ [b], s.2 + 1), true)

/-- the writer at the end -/
def Ending.writer : Ending σ → σ
  | .finished w => w
  | .panicked w => w
  | .aborted w => w

/-! ## Simulation -/

theorem offers_append (write : σ → Nat → σ × Bool) (w : σ) (a b : List Nat) :
    offers write w (a ++ b) = if (offers write w a).2 then offers write (offers write w a).1 b else offers write w a := by
  induction a generalizing w with
  | nil => rfl
  | cons x a ih =>
    simp only [List.cons_append, offers]
    by_cases h : (write w x).2 = true
    · simp only [if_pos h]
      exact ih _
    · simp only [if_neg h, Bool.false_eq_true, if_false]

/-- before the first byte nothing is held back -/
def Starts (e : Encoder) : Prop := 0 ≤ e.run ∧ (e.delay = false → e.run = 0 ∧ e.carry = true)

/-- one step of both encoders -/
structure KeptSim (write : σ → Nat → σ × Bool) (f : Encoder → Option Encoder) (g : EncoderIo σ → Kept σ) : Prop where
  ok : ∀ {e e'}, Starts e → f e = some e' → Starts e' ∧ ∃ t, e'.out = e.out ++ t ∧ ∀ w,
    ((offers write w t).2 = true → g (e.io w) = .ok (e'.io (offers write w t).1)) ∧
    ((offers write w t).2 = false → ∃ s, g (e.io w) = .panic s ∧ s.writer = (offers write w t).1 ∧ s.delay = true)
  no : ∀ {e}, Starts e → f e = none → ∀ w, ∃ s, g (e.io w) = .panic s

variable {write : σ → Nat → σ × Bool}

theorem KeptSim.comp {f f' : Encoder → Option Encoder} {g g' : EncoderIo σ → Kept σ} (h : KeptSim write f g)
    (h' : KeptSim write f' g') : KeptSim write (fun e => (f e).bind f') (fun e => (g e).next g') := by
  constructor
  · intro e e'' hs he
    obtain ⟨e', h1, h2⟩ := Option.bind_eq_some_iff.mp he
    obtain ⟨s1, t, t1, t2⟩ := h.ok hs h1
    obtain ⟨s2, t', t1', t2'⟩ := h'.ok s1 h2
    refine ⟨s2, t ++ t', by rw [t1', t1, List.append_assoc], fun w => ?_⟩
    rw [offers_append]
    by_cases hw : (offers write w t).2 = true
    · rw [if_pos hw, (t2 w).1 hw]
      exact t2' _
    · rw [if_neg hw]
      refine ⟨fun h => absurd h hw, fun hf => ?_⟩
      obtain ⟨s, hg, h3⟩ := (t2 w).2 hf
      exact ⟨s, by rw [hg]; rfl, h3⟩
  · intro e hs he w
    cases h1 : f e with
    | none =>
      obtain ⟨s, h2⟩ := h.no hs h1 w
      exact ⟨s, by rw [h2]; rfl⟩
    | some e' =>
      rw [h1, Option.bind_some] at he
      obtain ⟨s1, t, -, t2⟩ := h.ok hs h1
      cases hw : (offers write w t).2 with
      | true =>
        obtain ⟨s, h3⟩ := h'.no s1 he (offers write w t).1
        exact ⟨s, by rw [(t2 w).1 hw]; exact h3⟩
      | false =>
        obtain ⟨s, h3, -⟩ := (t2 w).2 hw
        exact ⟨s, by rw [h3]; rfl⟩

/-- a step that writes nothing -/
theorem KeptSim.silent {f : Encoder → Option Encoder} {g : EncoderIo σ → Kept σ}
    (h : ∀ e e' w, f e = some e' → g (e.io w) = .ok (e'.io w)) (hn : ∀ e w, f e = none → ∃ s, g (e.io w) = .panic s)
    (ho : ∀ e e', f e = some e' → e'.out = e.out ∧ (Starts e → Starts e')) : KeptSim write f g := by
  constructor
  · intro e e' hs he
    obtain ⟨h1, h2⟩ := ho e e' he
    exact ⟨h2 hs, [], by rw [h1, List.append_nil], fun w => ⟨fun _ => h e e' w he, fun hf => by cases hf⟩⟩
  · exact fun _ he w => hn _ w he

/-- equal steps -/
theorem KeptSim.congr {f f' : Encoder → Option Encoder} {g g' : EncoderIo σ → Kept σ} (h : KeptSim write f g)
    (hf : ∀ e, f' e = f e) (hg : ∀ e, g' e = g e) : KeptSim write f' g' := by
  rw [show f' = f from funext hf, show g' = g from funext hg]
  exact h

theorem kept_run (b : Nat) : ∀ (n : Nat) (e : EncoderIo σ), e.run = n →
    ((offers write e.writer (List.replicate n b)).2 = true →
      EncoderIo.keptRun write b n e = .ok { e with writer := (offers write e.writer (List.replicate n b)).1, run := 0 }) ∧
    ((offers write e.writer (List.replicate n b)).2 = false → ∃ s, EncoderIo.keptRun write b n e = .panic s ∧
      s.writer = (offers write e.writer (List.replicate n b)).1 ∧ s.delay = e.delay)
  | 0, e, h => by
    refine ⟨fun _ => ?_, fun hf => by cases hf⟩
    obtain ⟨w, bu, ra, ru, la, de, ca⟩ := e
    dsimp only at h
    subst h
    rfl
  | n + 1, e, h => by
    rw [List.replicate_succ, offers, EncoderIo.keptRun, EncoderIo.keptWrite]
    by_cases hw : (write e.writer b).2 = true
    · simp only [if_pos hw, Kept.next]
      have ih := kept_run b n { e with writer := (write e.writer b).1, run := e.run - 1 } (by dsimp only; omega)
      exact ih
    · simp only [if_neg hw, Kept.next]
      exact ⟨fun hf => (by cases hf), fun _ => ⟨_, rfl, rfl, rfl⟩⟩

/-- the end of `output_byte` -/
theorem kept_tail (e : Encoder) (hr : 0 ≤ e.run) (w : σ) (o : Int) (t : List Nat) :
    ((offers write w e.rest).2 = true →
      ((EncoderIo.keptRun write (if e.carry then 0x00 else 0xff) e.run.toNat (e.io w)).next fun e =>
        .ok { e with last := o.toNat, delay := true, carry := false }) = .ok ((e.wrote o t).io (offers write w e.rest).1)) ∧
    ((offers write w e.rest).2 = false → ∃ s,
      ((EncoderIo.keptRun write (if e.carry then 0x00 else 0xff) e.run.toNat (e.io w)).next fun e =>
        .ok { e with last := o.toNat, delay := true, carry := false }) = .panic s ∧ s.writer = (offers write w e.rest).1 ∧
        s.delay = e.delay) := by
  have h := kept_run (write := write) (if e.carry then 0x00 else 0xff) e.run.toNat (e.io w) (by change e.run = _; omega)
  change ((offers write w e.rest).2 = true → _) ∧ ((offers write w e.rest).2 = false → _) at h
  refine ⟨fun ht => ?_, fun hf => ?_⟩
  · rw [h.1 ht, Kept.next]
    have hmin : min e.run 0 = 0 := by omega
    simp only [Encoder.wrote, Encoder.io, hmin]
    rfl
  · obtain ⟨s, h1, h2, h3⟩ := h.2 hf
    exact ⟨s, by rw [h1]; rfl, h2, h3⟩

theorem kept_output_cases (e : Encoder) (w : σ) (o : Int) : (e.io w).keptOutput write o =
    if 0 ≤ o ∧ o ≤ 255 then
      if o.toNat ≠ 0xff ∨ e.carry = true then
        ((e.io w).keptDelayed write).next fun e =>
          (EncoderIo.keptRun write (if e.carry then 0x00 else 0xff) e.run.toNat e).next fun e =>
            .ok { e with last := o.toNat, delay := true, carry := false }
      else
        match i32 (e.run + 1) with
        | none => .panic (e.io w)
        | some run => .ok (({ e with run := run } : Encoder).io w)
    else .panic (e.io w) := rfl

theorem kept_delayed_cases (e : Encoder) (w : σ) : (e.io w).keptDelayed write =
    if e.delay then
      match u8 (e.last + if e.carry then 1 else 0) with
      | none => .panic (e.io w)
      | some b => if (write w b).2 then .ok (e.io (write w b).1) else .panic (e.io (write w b).1)
    else .ok (e.io w) := rfl

theorem sim_kept_output (o : Int) : KeptSim write (fun e => e.outputByte o) (fun e => e.keptOutput write o) := by
  constructor
  · intro e e' hs he
    rw [outputByte_cases] at he
    simp only [kept_output_cases, kept_delayed_cases]
    by_cases h0 : 0 ≤ o ∧ o ≤ 255
    swap
    · rw [if_neg h0] at he
      cases he
    simp only [if_pos h0] at he ⊢
    by_cases h1 : o.toNat ≠ 0xff ∨ e.carry = true
    · simp only [if_pos h1] at he ⊢
      by_cases h2 : e.delay = true
      · simp only [if_pos h2] at he ⊢
        obtain ⟨b, hb, rfl⟩ := Option.map_eq_some_iff.mp he
        refine ⟨⟨le_min hs.1 (le_refl _) |>.trans (le_refl _), fun h => by cases h⟩, b :: e.rest, rfl, fun w => ?_⟩
        simp only [hb, offers]
        by_cases hw : (write w b).2 = true
        · simp only [if_pos hw, Kept.next]
          have h := kept_tail (write := write) e hs.1 (write w b).1 o (b :: e.rest)
          refine ⟨h.1, fun hf => ?_⟩
          obtain ⟨s, k1, k2, k3⟩ := h.2 hf
          exact ⟨s, k1, k2, k3.trans h2⟩
        · simp only [if_neg hw, Kept.next]
          exact ⟨fun hf => (by cases hf), fun _ => ⟨_, rfl, rfl, h2⟩⟩
      · simp only [if_neg h2] at he ⊢
        obtain rfl := Option.some.inj he
        refine ⟨⟨le_min hs.1 (le_refl _), fun h => by cases h⟩, e.rest, rfl, fun w => ?_⟩
        simp only [Kept.next]
        have h := kept_tail (write := write) e hs.1 w o e.rest
        refine ⟨h.1, fun hf => ?_⟩
        have hz : e.rest = [] := by
          unfold Encoder.rest
          rw [(hs.2 (by simpa using h2)).1]
          rfl
        rw [hz] at hf
        cases hf
    · simp only [if_neg h1] at he ⊢
      obtain ⟨r, hb, rfl⟩ := Option.map_eq_some_iff.mp he
      have hr : r = e.run + 1 := by
        unfold i32 at hb
        split at hb
        · exact (Option.some.inj hb).symm
        · cases hb
      refine ⟨⟨?_, fun h => ?_⟩, [], (List.append_nil _).symm, fun w => ?_⟩
      · have := hs.1
        change 0 ≤ r
        omega
      · have := (hs.2 h).2
        exact absurd (Or.inr this) h1
      · simp only [hb]
        exact ⟨fun _ => rfl, fun hf => by cases hf⟩
  · intro e hs he w
    rw [outputByte_cases] at he
    rw [kept_output_cases, kept_delayed_cases]
    by_cases h0 : 0 ≤ o ∧ o ≤ 255
    · simp only [if_pos h0] at he ⊢
      by_cases h1 : o.toNat ≠ 0xff ∨ e.carry = true
      · simp only [if_pos h1] at he ⊢
        by_cases h2 : e.delay = true
        · simp only [if_pos h2] at he ⊢
          rw [Option.map_eq_none_iff.mp he]
          exact ⟨_, rfl⟩
        · simp only [if_neg h2] at he
          cases he
      · simp only [if_neg h1] at he ⊢
        rw [Option.map_eq_none_iff.mp he]
        exact ⟨_, rfl⟩
    · rw [if_neg h0]
      exact ⟨_, rfl⟩

theorem sim_kept_loop : ∀ fuel, KeptSim write (Encoder.normalizeLoop fuel) (EncoderIo.keptLoop write fuel)
  | 0 => ⟨fun _ h => (by cases h), fun _ _ _ => ⟨_, rfl⟩⟩
  | fuel + 1 => by
    have hs : KeptSim write
        (fun e => some { e with buffer := wrapI32 (e.buffer * 2 ^ 8) % 2 ^ 31, range := wrapI32 (e.range * 2 ^ 8) })
        (fun e => .ok { e with buffer := wrapI32 (e.buffer * 2 ^ 8) % 2 ^ 31, range := wrapI32 (e.range * 2 ^ 8) }) :=
      KeptSim.silent (by rintro e e' w h; cases h; rfl) (by rintro e w h; cases h) (by rintro e e' h; cases h; exact ⟨rfl, id⟩)
    have hc := fun o => (sim_kept_output (write := write) o).comp (hs.comp (sim_kept_loop fuel))
    constructor
    · intro e e' hst he
      rw [Encoder.normalizeLoop] at he
      by_cases hlt : e.range < 0x800000
      · rw [if_pos hlt] at he
        obtain ⟨s1, t, t1, t2⟩ := (hc (e.buffer / 2 ^ 23)).ok hst he
        refine ⟨s1, t, t1, fun w => ?_⟩
        have := t2 w
        rw [EncoderIo.keptLoop, if_pos (show (e.io w).range < 0x800000 from hlt)]
        exact this
      · rw [if_neg hlt] at he
        cases he
        refine ⟨hst, [], by simp, fun w => ?_⟩
        rw [EncoderIo.keptLoop, if_neg (show ¬ (e.io w).range < 0x800000 from hlt)]
        exact ⟨fun _ => rfl, fun hf => by cases hf⟩
    · intro e hst he w
      rw [Encoder.normalizeLoop] at he
      by_cases hlt : e.range < 0x800000
      · rw [if_pos hlt] at he
        rw [EncoderIo.keptLoop, if_pos (show (e.io w).range < 0x800000 from hlt)]
        exact (hc (e.buffer / 2 ^ 23)).no hst he w
      · rw [if_neg hlt] at he
        cases he

theorem sim_kept_normalize : KeptSim write Encoder.normalize (EncoderIo.keptNormalize write) := by
  have h := sim_kept_loop (write := write) 4
  constructor
  · intro e e' hs he
    unfold Encoder.normalize at he
    obtain ⟨_, h1, h2⟩ := Option.bind_eq_some_iff.mp he
    rw [check_eq_some] at h1
    obtain ⟨s1, t, t1, t2⟩ := h.ok hs h2
    refine ⟨s1, t, t1, fun w => ?_⟩
    unfold EncoderIo.keptNormalize
    rw [if_pos (show (e.io w).range ≠ 0 from h1)]
    exact t2 w
  · intro e hs he w
    unfold Encoder.normalize at he
    unfold EncoderIo.keptNormalize
    by_cases h1 : e.range ≠ 0
    · rw [if_pos (show (e.io w).range ≠ 0 from h1)]
      rw [check_pos h1, ob_some] at he
      exact h.no hs he w
    · rw [if_neg (show ¬ (e.io w).range ≠ 0 from h1)]
      exact ⟨_, rfl⟩

theorem add_starts {e : Encoder} (m : Int) (h : Starts e) : Starts (e.addWithCarry m) := by
  unfold Encoder.addWithCarry
  dsimp only
  split_ifs
  · exact ⟨h.1, fun hd => ⟨(h.2 hd).1, rfl⟩⟩
  · exact h

theorem sim_kept_bit (p : Nat) (v : Bool) : KeptSim write (fun e => (i64 (e.range * p)).bind fun product =>
      if v then (i32 ((e.addWithCarry (wrapI32 (product / 2 ^ 23))).range - wrapI32 (product / 2 ^ 23))).bind fun range =>
        some { e.addWithCarry (wrapI32 (product / 2 ^ 23)) with range := range }
      else some { e with range := wrapI32 (product / 2 ^ 23) }) (EncoderIo.keptBit p v) := by
  refine KeptSim.silent ?_ ?_ ?_
  · intro e e' w h
    obtain ⟨product, h1, h⟩ := Option.bind_eq_some_iff.mp h
    unfold EncoderIo.keptBit
    rw [show (e.io w).range = e.range from rfl, h1]
    dsimp only
    rw [io_add]
    cases v
    · cases h; rfl
    · simp only [if_true] at h ⊢
      obtain ⟨r, h2, h⟩ := Option.bind_eq_some_iff.mp h
      cases h
      rw [show ((e.addWithCarry (wrapI32 (product / 2 ^ 23))).io w).range = (e.addWithCarry (wrapI32 (product / 2 ^ 23))).range
        from rfl, h2]
      rfl
  · intro e w h
    unfold EncoderIo.keptBit
    rw [show (e.io w).range = e.range from rfl]
    cases h1 : i64 (e.range * p) with
    | none => exact ⟨_, rfl⟩
    | some product =>
      rw [h1, Option.bind_some] at h
      dsimp only
      rw [io_add]
      cases v
      · cases h
      · simp only [if_true] at h ⊢
        rw [show ((e.addWithCarry (wrapI32 (product / 2 ^ 23))).io w).range = (e.addWithCarry (wrapI32 (product / 2 ^ 23))).range
          from rfl]
        cases h2 : i32 ((e.addWithCarry (wrapI32 (product / 2 ^ 23))).range - wrapI32 (product / 2 ^ 23)) with
        | none => exact ⟨_, rfl⟩
        | some r => rw [h2] at h; cases h
  · intro e e' h
    obtain ⟨_, -, h⟩ := Option.bind_eq_some_iff.mp h
    cases v
    · cases h; exact ⟨rfl, id⟩
    · simp only [if_true] at h
      obtain ⟨_, -, h⟩ := Option.bind_eq_some_iff.mp h
      cases h
      exact ⟨add_out _ _, fun hs => add_starts _ hs⟩

theorem sim_kept_rare (v : Bool) : KeptSim write (fun e =>
      if v then (i32 (e.range - 1)).bind fun freq => some { e.addWithCarry freq with range := 1 }
      else (i32 (e.range - 1)).bind fun range => some { e with range := range }) (EncoderIo.keptRare v) := by
  refine KeptSim.silent ?_ ?_ ?_
  · intro e e' w h
    unfold EncoderIo.keptRare
    rw [show (e.io w).range = e.range from rfl]
    cases h1 : i32 (e.range - 1) with
    | none => rw [h1] at h; cases v <;> cases h
    | some r =>
      rw [h1] at h
      cases v
      · cases h; rfl
      · simp only [if_true, Option.bind_some] at h ⊢
        cases h
        rw [io_add]
        rfl
  · intro e w h
    unfold EncoderIo.keptRare
    rw [show (e.io w).range = e.range from rfl]
    cases h1 : i32 (e.range - 1) with
    | none => exact ⟨_, rfl⟩
    | some r => rw [h1] at h; cases v <;> cases h
  · intro e e' h
    cases v
    · obtain ⟨_, -, h⟩ := Option.bind_eq_some_iff.mp h
      cases h; exact ⟨rfl, id⟩
    · simp only [if_true] at h
      obtain ⟨_, -, h⟩ := Option.bind_eq_some_iff.mp h
      cases h
      exact ⟨add_out _ _, fun hs => add_starts _ hs⟩

theorem sim_kept_events : ∀ evs : List Event, KeptSim write (fun e => e.events evs) (EncoderIo.keptEvents write evs)
  | [] => KeptSim.silent (by rintro e e' w h; cases h; rfl) (by rintro e w h; cases h) (by rintro e e' h; cases h; exact ⟨rfl, id⟩)
  | .bit p v :: evs => KeptSim.congr ((sim_kept_normalize.comp (sim_kept_bit p v)).comp (sim_kept_events evs)) (fun e => by
      rfl) (fun _ => rfl)
  | .rare v :: evs => KeptSim.congr ((sim_kept_normalize.comp (sim_kept_rare v)).comp (sim_kept_events evs)) (fun e => by
      rfl) (fun _ => rfl)

theorem sim_kept_drop : ∀ n, KeptSim write (Encoder.rounds n) (EncoderIo.keptDrop write n)
  | 0 => KeptSim.silent (by rintro e e' w h; cases h; rfl) (by rintro e w h; cases h) (by rintro e e' h; cases h; exact ⟨rfl, id⟩)
  | n + 1 => by
    have hs : KeptSim write (fun e => some { e with buffer := wrapI32 (e.buffer * 2 ^ 8) })
        (fun e => .ok { e with buffer := wrapI32 (e.buffer * 2 ^ 8) }) :=
      KeptSim.silent (by rintro e e' w h; cases h; rfl) (by rintro e w h; cases h) (by rintro e e' h; cases h; exact ⟨rfl, id⟩)
    have hc := fun o => ((sim_kept_output (write := write) o).comp hs).comp (sim_kept_drop n)
    have hg : ∀ (o : Int) (e : EncoderIo σ), ((e.keptOutput write o).next fun e => .ok { e with buffer := wrapI32 (e.buffer * 2 ^ 8) }).next
        (EncoderIo.keptDrop write n) = (e.keptOutput write o).next fun e =>
          EncoderIo.keptDrop write n { e with buffer := wrapI32 (e.buffer * 2 ^ 8) } := by
      intro o e
      cases e.keptOutput write o <;> rfl
    constructor
    · intro e e' hst he
      obtain ⟨s1, t, t1, t2⟩ := (hc (e.buffer / 2 ^ 23 % 2 ^ 8)).ok hst he
      refine ⟨s1, t, t1, fun w => ?_⟩
      have := t2 w
      simp only [hg] at this
      exact this
    · intro e hst he w
      have := (hc (e.buffer / 2 ^ 23 % 2 ^ 8)).no hst he w
      simp only [hg] at this
      exact this

theorem starts_new : Starts Encoder.new := ⟨le_refl _, fun _ => ⟨rfl, rfl⟩⟩

theorem encode_rounds {evs : List Event} {out : List Nat} (h : encode evs = some out) :
    ∃ e e', Encoder.new.events evs = some e ∧ Encoder.rounds 5 e = some e' ∧ e'.out = out := by
  unfold encode at h
  obtain ⟨e, h1, h2⟩ := Option.bind_eq_some_iff.mp h
  rw [finish_rounds] at h2
  obtain ⟨e', h3, h4⟩ := Option.map_eq_some_iff.mp h2
  exact ⟨e, e', h1, h3, h4⟩

/-- what the events and the end write, and how the encoder ends -/
theorem kept_shape {evs : List Event} {out : List Nat} (h : encode evs = some out) :
    ∃ e t, Encoder.new.events evs = some e ∧ out = e.out ++ t ∧ ∀ w : σ,
      ((offers write w e.out).2 = true → (offers write (offers write w e.out).1 t).2 = true →
        encodeKept write w evs = .finished (offers write w out).1) ∧
      ((offers write w e.out).2 = true → (offers write (offers write w e.out).1 t).2 = false →
        encodeKept write w evs = .panicked (offers write w out).1) ∧
      ((offers write w e.out).2 = false → ∃ s : EncoderIo σ, s.writer = (offers write w out).1 ∧ s.delay = true ∧
        encodeKept write w evs = match s.keptDrop write 5 with
          | .ok e => .panicked e.writer
          | .panic e => .aborted e.writer) := by
  obtain ⟨e, e', h1, h2, h3⟩ := encode_rounds h
  obtain ⟨s1, t0, a1, a2⟩ := (sim_kept_events (write := write) evs).ok starts_new h1
  obtain ⟨s2, t, b1, b2⟩ := (sim_kept_drop (write := write) 5).ok s1 h2
  obtain rfl : t0 = e.out := by rw [a1]; rfl
  rw [h3] at b1
  refine ⟨e, t, h1, b1, fun w => ?_⟩
  have ho : offers write w out = if (offers write w e.out).2 then offers write (offers write w e.out).1 t
      else offers write w e.out := by rw [b1, offers_append]
  have hn : Encoder.new.io w = EncoderIo.new w := rfl
  have A := a2 w
  rw [hn] at A
  refine ⟨fun c1 c2 => ?_, fun c1 c2 => ?_, fun c1 => ?_⟩
  · unfold encodeKept
    rw [A.1 c1]
    dsimp only
    rw [(b2 _).1 c2, ho, if_pos c1]
    rfl
  · unfold encodeKept
    rw [A.1 c1]
    dsimp only
    obtain ⟨s, k1, k2, -⟩ := (b2 _).2 c2
    rw [k1, ho, if_pos c1, ← k2]
  · obtain ⟨s, k1, k2, k3⟩ := A.2 c1
    refine ⟨s, by rw [ho, c1, k2]; rfl, k3, ?_⟩
    unfold encodeKept
    rw [k1]
    rfl

/-- **C92 (noticed).** Whatever the writer does: the use of the encoder ends regularly if and only if the events can be coded and the
writer takes every byte of the output, each offered once. So a refused byte never goes unnoticed, although the encoder is dropped. -/
theorem C92_noticed (write : σ → Nat → σ × Bool) (w w' : σ) (evs : List Event) :
    encodeKept write w evs = .finished w' ↔ ∃ out, encode evs = some out ∧ offers write w out = (w', true) := by
  constructor
  · intro hf
    cases h : encode evs with
    | some out =>
      refine ⟨out, rfl, ?_⟩
      obtain ⟨e, t, -, h2, h3⟩ := kept_shape (write := write) h
      obtain ⟨k1, k2, k3⟩ := h3 w
      have ho : offers write w out = if (offers write w e.out).2 then offers write (offers write w e.out).1 t
          else offers write w e.out := by rw [h2, offers_append]
      cases c1 : (offers write w e.out).2 with
      | false =>
        obtain ⟨s, -, -, hs⟩ := k3 c1
        rw [hs] at hf
        cases hd : s.keptDrop write 5 <;> rw [hd] at hf <;> cases hf
      | true =>
        cases c2 : (offers write (offers write w e.out).1 t).2 with
        | false => rw [k2 c1 c2] at hf; cases hf
        | true =>
          rw [k1 c1 c2] at hf
          injection hf with hf
          rw [c1, if_pos rfl] at ho
          rw [← hf]
          refine Prod.ext rfl ?_
          rw [ho]
          exact c2
    | none =>
      exfalso
      unfold encode at h
      cases h1 : Encoder.new.events evs with
      | none =>
        obtain ⟨s, hs⟩ := (sim_kept_events (write := write) evs).no starts_new h1 w
        change (EncoderIo.new w).keptEvents write evs = _ at hs
        unfold encodeKept at hf
        rw [hs] at hf
        dsimp only at hf
        cases hd : s.keptDrop write 5 <;> rw [hd] at hf <;> cases hf
      | some e =>
        rw [h1, ob_some, finish_rounds, Option.map_eq_none_iff] at h
        obtain ⟨s1, t, -, t2⟩ := (sim_kept_events (write := write) evs).ok starts_new h1
        have T := t2 w
        change (_ → (EncoderIo.new w).keptEvents write evs = _) ∧ (_ → ∃ s, (EncoderIo.new w).keptEvents write evs = _ ∧ _) at T
        unfold encodeKept at hf
        cases c1 : (offers write w t).2 with
        | true =>
          rw [T.1 c1] at hf
          obtain ⟨s, hs⟩ := (sim_kept_drop (write := write) 5).no s1 h (offers write w t).1
          dsimp only at hf
          rw [hs] at hf
          cases hf
        | false =>
          obtain ⟨s, k1, -⟩ := T.2 c1
          rw [k1] at hf
          dsimp only at hf
          cases hd : s.keptDrop write 5 <;> rw [hd] at hf <;> cases hf
  · rintro ⟨out, h, ho⟩
    obtain ⟨e, t, -, h2, h3⟩ := kept_shape (write := write) h
    obtain ⟨k1, k2, k3⟩ := h3 w
    have ho2 : offers write w out = if (offers write w e.out).2 then offers write (offers write w e.out).1 t
        else offers write w e.out := by rw [h2, offers_append]
    cases c1 : (offers write w e.out).2 with
    | false =>
      rw [c1, ho] at ho2
      have := congrArg Prod.snd ho2
      rw [if_neg (by simp), c1] at this
      cases this
    | true =>
      rw [c1, if_pos rfl, ho] at ho2
      rw [k1 c1 (by rw [← ho2]), ho]

/-! ## A full device -/

theorem offers_full : ∀ (t : List Nat) (c : List Nat) (n : Nat),
    offers fullDevice (c, n) t = ((c ++ t.take n, n - t.length), decide (t.length ≤ n))
  | [], c, n => by simp [offers]
  | b :: t, c, 0 => by simp [offers, fullDevice]
  | b :: t, c, n + 1 => by
    rw [offers]
    simp only [fullDevice, Nat.add_eq_zero_iff, one_ne_zero, and_false, if_false, if_true, Nat.add_sub_cancel]
    rw [offers_full t (c ++ [b]) n]
    simp

/-- a refused write changes nothing -/
theorem stuck_run (b : Nat) (n : Nat) (e : EncoderIo σ) (hb : ∀ b, write e.writer b = (e.writer, false)) :
    (∃ s, EncoderIo.keptRun write b n e = .panic s ∧ s.writer = e.writer) ∨ (EncoderIo.keptRun write b n e = .ok e) := by
  cases n with
  | zero => exact .inr rfl
  | succ n =>
    left
    rw [EncoderIo.keptRun, EncoderIo.keptWrite]
    simp only [hb, Bool.false_eq_true, if_false, Kept.next]
    exact ⟨_, rfl, rfl⟩

theorem stuck_output (o : Int) (e : EncoderIo σ) (hd : e.delay = true) (hb : ∀ b, write e.writer b = (e.writer, false)) :
    (∃ s, e.keptOutput write o = .panic s ∧ s.writer = e.writer) ∨
      (o.toNat = 255 ∧ ∃ r, e.keptOutput write o = .ok { e with run := r }) := by
  unfold EncoderIo.keptOutput
  by_cases h0 : 0 ≤ o ∧ o ≤ 255
  swap
  · rw [if_neg h0]; exact .inl ⟨_, rfl, rfl⟩
  rw [if_pos h0]
  by_cases h1 : o.toNat ≠ 0xff ∨ e.carry = true
  · rw [if_pos h1]
    left
    unfold EncoderIo.keptDelayed
    rw [if_pos hd]
    cases u8 (e.last + if e.carry then 1 else 0) with
    | none => exact ⟨_, rfl, rfl⟩
    | some b =>
      simp only [EncoderIo.keptWrite, hb, Bool.false_eq_true, if_false, Kept.next]
      exact ⟨_, rfl, rfl⟩
  · rw [if_neg h1]
    cases i32 (e.run + 1) with
    | none => exact .inl ⟨_, rfl, rfl⟩
    | some r => exact .inr ⟨by omega, r, rfl⟩

/-- `Drop` on a device that refuses everything panics and changes nothing -/
theorem stuck_drop (e : EncoderIo σ) (hd : e.delay = true) (hb : ∀ b, write e.writer b = (e.writer, false)) :
    ∃ s, e.keptDrop write 5 = .panic s ∧ s.writer = e.writer := by
  have key : ∀ n (e : EncoderIo σ), e.delay = true → (∀ b, write e.writer b = (e.writer, false)) →
      (∃ s, e.keptDrop write (n + 1) = .panic s ∧ s.writer = e.writer) ∨ (e.buffer / 2 ^ 23 % 2 ^ 8 = 255 ∧ ∃ e' : EncoderIo σ,
        e'.delay = true ∧ e'.writer = e.writer ∧ e'.buffer = wrapI32 (e.buffer * 2 ^ 8) ∧
        e.keptDrop write (n + 1) = e'.keptDrop write n) := by
    intro n e hd hb
    rw [EncoderIo.keptDrop]
    rcases stuck_output (e.buffer / 2 ^ 23 % 2 ^ 8) e hd hb with ⟨s, h1, h2⟩ | ⟨h1, r, h2⟩
    · exact .inl ⟨s, by rw [h1]; rfl, h2⟩
    · exact .inr ⟨by omega, { e with run := r, buffer := wrapI32 (e.buffer * 2 ^ 8) }, hd, rfl, rfl, by rw [h2]; rfl⟩
  rcases key 4 e hd hb with h | ⟨-, e1, d1, w1, b1, h1⟩
  · exact h
  rw [h1, ← w1]
  rw [← w1] at hb
  rcases key 3 e1 d1 hb with h | ⟨-, e2, d2, w2, b2, h2⟩
  · exact h
  rw [h2, ← w2]
  rw [← w2] at hb
  rcases key 2 e2 d2 hb with h | ⟨-, e3, d3, w3, b3, h3⟩
  · exact h
  rw [h3, ← w3]
  rw [← w3] at hb
  rcases key 1 e3 d3 hb with h | ⟨-, e4, d4, w4, b4, h4⟩
  · exact h
  rw [h4, ← w4]
  rw [← w4] at hb
  rcases key 0 e4 d4 hb with h | ⟨h5, -⟩
  · exact h
  exfalso
  unfold wrapI32 at b1 b2 b3 b4
  omega

/-- **C92 (full device).** On a device with room for `n` bytes: if the output has at most `n` bytes, everything ends regularly and the
device holds the output. Otherwise it holds exactly the first `n` bytes of the output, and nothing else, although the encoder tries
to write while unwinding. If the device was full already for the bytes that the events write, the process is aborted; if not, it
panics at the end. -/
theorem C92_full (evs : List Event) {out : List Nat} (h : encode evs = some out) (n : Nat) :
    ∃ e, Encoder.new.events evs = some e ∧ encodeKept fullDevice ([], n) evs =
      if out.length ≤ n then .finished (out, n - out.length)
      else if e.out.length ≤ n then .panicked (out.take n, 0)
      else .aborted (out.take n, 0) := by
  obtain ⟨e, t, h1, h2, h3⟩ := kept_shape (write := fullDevice) h
  refine ⟨e, h1, ?_⟩
  obtain ⟨k1, k2, k3⟩ := h3 ([], n)
  simp only [offers_full, List.nil_append, decide_eq_true_eq, decide_eq_false_iff_not] at k1 k2 k3
  have hl : out.length = e.out.length + t.length := by rw [h2, List.length_append]
  by_cases c0 : out.length ≤ n
  · rw [if_pos c0, k1 (by omega) (by omega), List.take_of_length_le c0]
  · rw [if_neg c0]
    by_cases c1 : e.out.length ≤ n
    · rw [if_pos c1, k2 c1 (by omega), show n - out.length = 0 by omega]
    · rw [if_neg c1]
      obtain ⟨s, s1, s2, s3⟩ := k3 c1
      rw [show n - out.length = 0 by omega] at s1
      obtain ⟨s', d1, d2⟩ := stuck_drop (write := fullDevice) s s2 (fun b => by rw [s1]; rfl)
      rw [s3, d1]
      dsimp only
      rw [d2, s1]

/-! ## A device that fails now and then -/

theorem scheduled_cases (fails : Nat → Bool) (s : List Nat × Nat) (b : Nat) : s.1 <+: (scheduled fails s b).1.1 := by
  unfold scheduled
  split
  · exact List.prefix_rfl
  · exact List.prefix_append _ _

theorem offers_scheduled (fails : Nat → Bool) : ∀ (t c : List Nat) (i k : Nat), (∀ j < k, fails (i + j) = false) → k ≤ t.length →
    (k = t.length → offers (scheduled fails) (c, i) t = ((c ++ t, i + k), true)) ∧
    (k < t.length → fails (i + k) = true → offers (scheduled fails) (c, i) t = ((c ++ t.take k, i + k + 1), false)) := by
  intro t
  induction t with
  | nil =>
    intro c i k _ hk
    refine ⟨fun hk => ?_, fun hl => by simp at hl⟩
    subst hk
    simp [offers]
  | cons b t ih =>
    intro c i k hf hk
    rw [offers]
    cases k with
    | zero =>
      refine ⟨fun hk => by simp at hk, fun _ h => ?_⟩
      simp only [Nat.add_zero] at h
      simp [scheduled, h]
    | succ k =>
      have h0 := hf 0 (by omega)
      rw [Nat.add_zero] at h0
      have hw : scheduled fails (c, i) b = ((c ++ [b], i + 1), true) := by simp [scheduled, h0]
      rw [hw]
      simp only [if_true]
      obtain ⟨g1, g2⟩ := ih (c ++ [b]) (i + 1) k (fun j hj => by rw [show i + 1 + j = i + (j + 1) by omega]; exact hf _ (by omega))
        (by simpa using hk)
      refine ⟨fun hk => ?_, fun hk h => ?_⟩
      · rw [g1 (by simpa using hk)]
        simp [Nat.add_assoc, Nat.add_comm 1]
      · rw [g2 (by simpa using hk) (by rw [show i + 1 + k = i + (k + 1) by omega]; exact h)]
        simp [Nat.add_assoc, Nat.add_comm 1]

/-- the writer of either result -/
def Kept.writer : Kept σ → σ
  | .ok e => e.writer
  | .panic e => e.writer

theorem kept_grow (r : Kept (List Nat × Nat)) (f : EncoderIo (List Nat × Nat) → Kept (List Nat × Nat))
    {c : List Nat} (h : c <+: r.writer.1) (hf : ∀ e, e.writer.1 <+: (f e).writer.1) : c <+: (r.next f).writer.1 := by
  cases r with
  | ok e => exact h.trans (hf e)
  | panic e => exact h

theorem write_grow (fails : Nat → Bool) (e : EncoderIo (List Nat × Nat)) (b : Nat) :
    e.writer.1 <+: (e.keptWrite (scheduled fails) b).writer.1 := by
  unfold EncoderIo.keptWrite
  split
  · exact scheduled_cases _ _ _
  · exact scheduled_cases _ _ _

theorem run_grow (fails : Nat → Bool) (b : Nat) : ∀ (n : Nat) (e : EncoderIo (List Nat × Nat)),
    e.writer.1 <+: (EncoderIo.keptRun (scheduled fails) b n e).writer.1
  | 0, _ => List.prefix_rfl
  | n + 1, e => kept_grow _ _ (write_grow fails { e with run := e.run - 1 } b) (run_grow fails b n)

theorem output_grow (fails : Nat → Bool) (o : Int) (e : EncoderIo (List Nat × Nat)) :
    e.writer.1 <+: (e.keptOutput (scheduled fails) o).writer.1 := by
  unfold EncoderIo.keptOutput
  split
  · split
    · refine kept_grow _ _ ?_ fun e => kept_grow _ _ (run_grow fails _ _ e) fun _ => List.prefix_rfl
      unfold EncoderIo.keptDelayed
      split
      · split
        · exact List.prefix_rfl
        · exact write_grow _ _ _
      · exact List.prefix_rfl
    · split <;> exact List.prefix_rfl
  · exact List.prefix_rfl

theorem drop_grow (fails : Nat → Bool) : ∀ (n : Nat) (e : EncoderIo (List Nat × Nat)),
    e.writer.1 <+: (e.keptDrop (scheduled fails) n).writer.1
  | 0, _ => List.prefix_rfl
  | n + 1, e => kept_grow _ _ (output_grow fails _ e) fun e =>
    drop_grow fails n { e with buffer := wrapI32 (e.buffer * 2 ^ 8) }

/-- **C92 (failures).** On a device that refuses some of its calls: if it takes the first calls, as many as the output has bytes, then
everything ends regularly and it holds the output. Otherwise, if call `k` is the first it refuses, the ending is a panic or an abort,
and what the device holds begins with the first `k` bytes of the output. -/
theorem C92_scheduled (fails : Nat → Bool) (evs : List Event) {out : List Nat} (h : encode evs = some out) (k : Nat)
    (hf : ∀ j < k, fails j = false) (hk : k ≤ out.length) :
    (k = out.length → encodeKept (scheduled fails) ([], 0) evs = .finished (out, k)) ∧
    (k < out.length → fails k = true → (∀ w, encodeKept (scheduled fails) ([], 0) evs ≠ .finished w) ∧
      out.take k <+: (encodeKept (scheduled fails) ([], 0) evs).writer.1) := by
  obtain ⟨g1, g2⟩ := offers_scheduled fails out [] 0 k (fun j hj => by rw [Nat.zero_add]; exact hf j hj) hk
  simp only [Nat.zero_add, List.nil_append] at g1 g2
  refine ⟨fun hk => (C92_noticed _ _ _ _).mpr ⟨out, h, g1 hk⟩, fun hk hfk => ⟨fun w hw => ?_, ?_⟩⟩
  · obtain ⟨out', h1, h2⟩ := (C92_noticed _ _ _ _).mp hw
    rw [h] at h1
    obtain rfl := Option.some.inj h1
    rw [g2 hk hfk] at h2
    have := congrArg Prod.snd h2
    cases this
  · have ho := g2 hk hfk
    obtain ⟨e, t, -, h2, h3⟩ := kept_shape (write := scheduled fails) h
    obtain ⟨k1, k2, k3⟩ := h3 ([], 0)
    have ho2 : offers (scheduled fails) ([], 0) out = if (offers (scheduled fails) ([], 0) e.out).2 then
        offers (scheduled fails) (offers (scheduled fails) ([], 0) e.out).1 t else offers (scheduled fails) ([], 0) e.out := by
      rw [h2, offers_append]
    rw [ho] at k1 k2 k3 ho2
    cases c1 : (offers (scheduled fails) ([], 0) e.out).2 with
    | false =>
      obtain ⟨s, s1, -, s3⟩ := k3 c1
      rw [s3]
      have := drop_grow fails 5 s
      rw [s1] at this
      cases hd : s.keptDrop (scheduled fails) 5 <;> rw [hd] at this <;> exact this
    | true =>
      rw [c1, if_pos rfl] at ho2
      rw [k2 c1 (by rw [← ho2])]
      exact List.prefix_rfl

/-- events whose output begins with 0x7f 0xff 0xff 0xfe -/
def runEvents : List Event := [.bit (2 ^ 22) true, .bit 1 false, .bit 1 false, .bit 1 false, .bit 1 false]

theorem runEvents_valid : ∀ ev ∈ runEvents, ev.Valid := by
  intro ev hev
  simp only [runEvents, List.mem_cons, List.not_mem_nil, or_false] at hev
  rcases hev with rfl | rfl | rfl | rfl | rfl <;> simp [Event.Valid]

/-- **C92 (one failure).** A device that refuses a single call, takes everything else, and is then left with bytes that are not the
beginning of the output of the events, nor of the events that were coded completely: the byte 0x7f is written twice and one of
the two bytes 0xff is lost, because the encoder has counted down the run before the refused call. The events before the refused
one are then decoded wrongly. -/
theorem C92_once : (∀ ev ∈ runEvents, ev.Valid) ∧
    encode runEvents = some [127, 255, 255, 254, 0, 0, 0, 0, 0, 0, 0, 0] ∧
    encode (runEvents.take 3) = some [127, 255, 255, 254, 0, 0] ∧
    encodeKept (scheduled fun i => i = 1) ([], 0) runEvents = .panicked ([127, 127, 255, 254, 0, 0, 0], 8) ∧
    ∃ vs d, decode [127, 127, 255, 254, 0, 0, 0] ((runEvents.take 3).map Event.query) = some (vs, d) ∧
      vs ≠ (runEvents.take 3).map Event.value := by
  refine ⟨runEvents_valid, ?_, ?_, ?_, ?_⟩
  · decide +kernel
  · decide +kernel
  · decide +kernel
  · have h : ((decode [127, 127, 255, 254, 0, 0, 0] ((runEvents.take 3).map Event.query)).map Prod.fst).any
        (fun vs => decide (vs ≠ (runEvents.take 3).map Event.value)) = true := by decide +kernel
    cases hd : decode [127, 127, 255, 254, 0, 0, 0] ((runEvents.take 3).map Event.query) with
    | none => rw [hd] at h; cases h
    | some r => rw [hd] at h; exact ⟨r.1, r.2, rfl, of_decide_eq_true h⟩

/-- the hypotheses, and the three endings: room for all twelve bytes, for the seven that the events write, and for less -/
example : encode runEvents = some [127, 255, 255, 254, 0, 0, 0, 0, 0, 0, 0, 0] ∧
    encodeKept fullDevice ([], 20) runEvents = .finished ([127, 255, 255, 254, 0, 0, 0, 0, 0, 0, 0, 0], 8) ∧
    encodeKept fullDevice ([], 7) runEvents = .panicked ([127, 255, 255, 254, 0, 0, 0], 0) ∧
    encodeKept fullDevice ([], 2) runEvents = .aborted ([127, 255], 0) := by decide +kernel

end Verif.Coding
