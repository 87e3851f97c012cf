import Verif.Pred.ReportText

/-!
# The program as seen from outside (C93)

What the operating system sees of `main`: the calls that read the file, the two streams written, the exit code.
-/

namespace Verif.Pred

open Verif Verif.Coding Verif.Float Verif.Fixed Verif.Tree Verif.Text

/-! ## Model -/

/-- result of one call of the operating system for reading: some bytes, none at the end of the file; interrupted; failed
(`std::io::Read::read`, called by the `BufReader` of `src/main.rs:56`) -/
inductive ReadCall
  | data (bytes : List ℕ)
  | interrupted
  | failed
  deriving DecidableEq

/-- a `BufReader` with its unread bytes and the results of the calls to come, at the end of the file after the last one
(`src/main.rs:56`) -/
structure BufReader where
  buffer : List ℕ
  calls : List ReadCall

/-- `BufReader::fill_buf` on an empty buffer, repeated by `Bytes::next` after an interruption, and the byte taken then
(`src/main.rs:56`); `none` at the end of the file, `some none` after a failure -/
def fillNext : List ReadCall → Option (Option ℕ) × BufReader
  | [] => (none, ⟨[], []⟩)
  | .data [] :: calls => (none, ⟨[], calls⟩)
  | .data (b :: bs) :: calls => (some (some b), ⟨bs, calls⟩)
  | .interrupted :: calls => fillNext calls
  | .failed :: calls => (some none, ⟨[], calls⟩)

/-- `Bytes::next` on the `BufReader` (`src/main.rs:56`) -/
def BufReader.next (r : BufReader) : Option (Option ℕ) × BufReader :=
  match r.buffer with
  | b :: bs => (some (some b), ⟨bs, r.calls⟩)
  | [] => fillNext r.calls

/-- an upper bound for the rounds of the `for` loop -/
def BufReader.size (r : BufReader) : ℕ :=
  r.buffer.length + (r.calls.map fun c => match c with | .data bs => bs.length + 1 | _ => 1).sum

theorem fillNext_size (calls : List ReadCall) {x : Option ℕ} (h : (fillNext calls).1 = some x) :
    (fillNext calls).2.size < (⟨[], calls⟩ : BufReader).size := by
  induction calls with
  | nil => cases h
  | cons c calls ih =>
    rcases c with (_ | ⟨b, bs⟩) | _ | _
    · cases h
    · simp [fillNext, BufReader.size]
    · have := ih h
      simp only [fillNext, BufReader.size, List.map_cons, List.sum_cons] at this ⊢
      omega
    · simp [fillNext, BufReader.size]

theorem next_size (r : BufReader) {x : Option ℕ} (h : r.next.1 = some x) : r.next.2.size < r.size := by
  obtain ⟨buffer, calls⟩ := r
  cases buffer with
  | nil => exact fillNext_size calls h
  | cons b bs => simp [BufReader.next, BufReader.size]

/-- what the `for` loop gets from the iterator (`src/main.rs:56-57`); the `?` leaves it at the first failure -/
def readBytes (r : BufReader) : List (Option ℕ) :=
  match _h : r.next.1 with
  | none => []
  | some none => [none]
  | some (some b) => some b :: readBytes r.next.2
termination_by r.size
decreasing_by exact next_size r ‹_›

/-- the bits of a byte in the order of the inner loop (`src/main.rs:59-61`) -/
def bitsOf (b : ℕ) : List Bool := (List.range 8).reverse.map fun i => b &&& (1 <<< i) ≠ 0

/-- `estimate_compression` and `main` (`src/main.rs:29-103`) with a file system that gives the results of reading -/
def programReport (e : Platform) (args : List String) (fs : String → Option (List ReadCall)) : Option Report :=
  mainRun e args fun name => (fs name).map fun calls => (readBytes ⟨[], calls⟩).map fun x => x.map bitsOf

/-- `print_banner` (`src/main.rs:36-41`) -/
def banner : List Char :=
  "demixer - file compressor aimed at high compression ratios\n".toList ++
  "Copyright (C) 2018  Piotr Tarsa ".toList ++
  "( https://github.com/tarsa )\n".toList ++
  "\n".toList

/-- what a run of the program leaves: both streams and the exit code -/
structure Outcome where
  stdout : List Char
  stderr : List Char
  exit : ℕ
  deriving DecidableEq

/-- the program (`src/main.rs:29-41`). A panic prints a message, here `message`, to the standard error stream and ends the
process with code 101. Every `println!` comes after the last operation of `estimate_compression` that can fail (`src/main.rs:83`) -/
def program (near : ℚ → ℕ) (message : List Char) (e : Platform) (args : List String) (fs : String → Option (List ReadCall)) :
    Outcome :=
  match programReport e args fs with
  | some r => ⟨reportText near r, banner, 0⟩
  | none => ⟨[], banner ++ message, 101⟩

/-! ## Specification -/

/-- the calls before the end of the file or a failure -/
def goodCalls (calls : List ReadCall) : List ReadCall :=
  calls.takeWhile fun c => c ≠ .failed ∧ c ≠ .data []

/-- the bytes a sequence of calls delivers -/
def delivered (calls : List ReadCall) : List ℕ :=
  (goodCalls calls).flatMap fun c => match c with | .data bs => bs | _ => []

/-- the file is read to its end: no call fails before one reports the end -/
def ReadsToEnd (calls : List ReadCall) : Prop := calls[(goodCalls calls).length]? ≠ some .failed

instance (calls : List ReadCall) : Decidable (ReadsToEnd calls) := by
  unfold ReadsToEnd
  infer_instance

/-- a byte given by its bits, most significant first -/
def byteOf (bits : List Bool) : ℕ := bits.foldl (fun v b => 2 * v + b.toNat) 0

/-! ## Lemmas -/

theorem fillNext_spec (calls : List ReadCall) :
    (fillNext calls = (none, (fillNext calls).2) ∧ delivered calls = [] ∧ ReadsToEnd calls) ∨
    (fillNext calls = (some none, (fillNext calls).2) ∧ delivered calls = [] ∧ ¬ ReadsToEnd calls) ∨
    ∃ b bs calls', fillNext calls = (some (some b), ⟨bs, calls'⟩) ∧ delivered calls = b :: bs ++ delivered calls' ∧
      (ReadsToEnd calls ↔ ReadsToEnd calls') := by
  induction calls with
  | nil => exact .inl ⟨rfl, rfl, by simp [ReadsToEnd]⟩
  | cons c calls ih =>
    rcases c with (_ | ⟨b, bs⟩) | _ | _
    · exact .inl ⟨rfl, rfl, by simp [ReadsToEnd, goodCalls]⟩
    · exact .inr (.inr ⟨b, bs, calls, rfl, by simp [delivered, goodCalls], by simp [ReadsToEnd, goodCalls]⟩)
    · have h1 : delivered (.interrupted :: calls) = delivered calls := by simp [delivered, goodCalls]
      have h2 : ReadsToEnd (.interrupted :: calls) ↔ ReadsToEnd calls := by simp [ReadsToEnd, goodCalls]
      rw [h1, h2]
      exact ih
    · exact .inr (.inl ⟨rfl, rfl, by simp [ReadsToEnd, goodCalls]⟩)

theorem readBytes_spec (r : BufReader) :
    (ReadsToEnd r.calls → readBytes r = (r.buffer ++ delivered r.calls).map some) ∧
    (¬ ReadsToEnd r.calls → readBytes r = (r.buffer ++ delivered r.calls).map some ++ [none]) := by
  induction r using readBytes.induct with
  | case1 r h =>
    obtain ⟨buffer, calls⟩ := r
    cases buffer with
    | cons b bs => cases h
    | nil =>
      rw [readBytes, h]
      rcases fillNext_spec calls with ⟨-, h1, h2⟩ | ⟨h0, -, -⟩ | ⟨b, bs, calls', h0, -, -⟩
      · exact ⟨fun _ => by simp [h1], fun hn => absurd h2 hn⟩
      · rw [BufReader.next, h0] at h; cases h
      · rw [BufReader.next, h0] at h; cases h
  | case2 r h =>
    obtain ⟨buffer, calls⟩ := r
    cases buffer with
    | cons b bs => cases h
    | nil =>
      rw [readBytes, h]
      rcases fillNext_spec calls with ⟨h0, -, -⟩ | ⟨-, h1, h2⟩ | ⟨b, bs, calls', h0, -, -⟩
      · rw [BufReader.next, h0] at h; cases h
      · exact ⟨fun hn => absurd hn h2, fun _ => by simp [h1]⟩
      · rw [BufReader.next, h0] at h; cases h
  | case3 r b h ih =>
    rw [readBytes, h]
    obtain ⟨buffer, calls⟩ := r
    cases buffer with
    | cons b' bs =>
      obtain rfl : b' = b := by simpa [BufReader.next] using h
      exact ⟨fun hn => by rw [ih.1 hn]; rfl, fun hn => by rw [ih.2 hn]; rfl⟩
    | nil =>
      rcases fillNext_spec calls with ⟨h0, -, -⟩ | ⟨h0, -, -⟩ | ⟨b', bs, calls', h0, h1, h2⟩
      · rw [BufReader.next, h0] at h; cases h
      · rw [BufReader.next, h0] at h; cases h
      · have hn : (⟨[], calls⟩ : BufReader).next = (some (some b'), ⟨bs, calls'⟩) := h0
        obtain rfl : b' = b := by rw [hn] at h; simpa using h
        rw [hn] at ih ⊢
        dsimp only at ih ⊢
        rw [h1, h2]
        exact ⟨fun hq => by rw [ih.1 hq]; rfl, fun hq => by rw [ih.2 hq]; rfl⟩

theorem readBytes_none (calls : List ReadCall) : none ∉ readBytes ⟨[], calls⟩ ↔ ReadsToEnd calls := by
  by_cases h : ReadsToEnd calls
  · rw [(readBytes_spec ⟨[], calls⟩).1 h]
    simp [h]
  · rw [(readBytes_spec ⟨[], calls⟩).2 h]
    simp [h]

theorem bitsOf_length (b : ℕ) : (bitsOf b).length = 8 := by simp [bitsOf]

/-! ## Theorems -/

/-- **C93 (bits).** The bits of a byte are taken most significant first. -/
theorem C93_bits : ∀ b < 256, (bitsOf b).length = 8 ∧ byteOf (bitsOf b) = b := by decide +kernel

/-- **C93 (banner).** The banner has two lines and an empty one. -/
theorem C93_banner : lines banner =
    ["demixer - file compressor aimed at high compression ratios".toList,
      "Copyright (C) 2018  Piotr Tarsa ( https://github.com/tarsa )".toList, [], []] := by decide +kernel

/-- **C93 (streams).** The standard error stream begins with the banner. Either the exit code is 0, the standard output is the
whole report of C84 and nothing follows the banner, or the exit code is 101 and nothing has been written to the standard
output: no partial report is ever printed. -/
theorem C93_streams (near : ℚ → ℕ) (message : List Char) (e : Platform) (args : List String)
    (fs : String → Option (List ReadCall)) : ∃ o, program near message e args fs = o ∧ banner <+: o.stderr ∧
      ((o.exit = 0 ∧ o.stderr = banner ∧ ∃ name calls r, args[1]? = some name ∧ fs name = some calls ∧
          ReadsToEnd calls ∧ estimateCompression e ((delivered calls).map fun b => some (bitsOf b)) = some r ∧
          o.stdout = reportText near r) ∨
        (o.exit = 101 ∧ o.stdout = [])) := by
  refine ⟨_, rfl, ?_⟩
  unfold program
  cases h : programReport e args fs with
  | none => exact ⟨⟨message, rfl⟩, .inr ⟨rfl, rfl⟩⟩
  | some r =>
    refine ⟨List.prefix_rfl, .inl ⟨rfl, rfl, ?_⟩⟩
    rw [programReport, mainRun] at h
    obtain ⟨name, hn, h⟩ := Option.bind_eq_some_iff.mp h
    obtain ⟨file, hf, h⟩ := Option.bind_eq_some_iff.mp h
    obtain ⟨calls, hc, rfl⟩ := Option.map_eq_some_iff.mp hf
    by_cases hr : ReadsToEnd calls
    · rw [(readBytes_spec ⟨[], calls⟩).1 hr, List.map_map] at h
      exact ⟨name, calls, r, hn, hc, hr, h, rfl⟩
    · rw [(readBytes_spec ⟨[], calls⟩).2 hr] at h
      exfalso
      rw [estimateCompression] at h
      obtain ⟨t, -, h⟩ := Option.bind_eq_some_iff.mp h
      obtain ⟨p0, -, h⟩ := Option.bind_eq_some_iff.mp h
      obtain ⟨i, -, h⟩ := Option.bind_eq_some_iff.mp h
      obtain ⟨bytes, hb, -⟩ := Option.bind_eq_some_iff.mp h
      have := (mapM_some (f := id) _).mp (by rw [hb]; rfl) none (by simp)
      cases this

/-- **C93 (ending).** With an accurate logarithm the exit code is 0 if and only if a file name is given, the file can be opened,
no call fails before the end of the file is reported, and the clock has not been set back. -/
theorem C93_ending (near : ℚ → ℕ) (message : List Char) (e : Platform) (hr1 : e.initialized - e.start < 2 ^ 64 * 1000000000)
    (hr2 : e.finished - e.start < 2 ^ 64 * 1000000000) {d : ℝ} (hlg : LogWithin e.log2 d) (hd : 0 ≤ d) (hd8 : d ≤ 1 / 8)
    (args : List String) (fs : String → Option (List ReadCall))
    (hfs : ∀ name calls, fs name = some calls → (delivered calls).length < 2 ^ 35) :
    (program near message e args fs).exit = 0 ↔
      (∃ name calls, args[1]? = some name ∧ fs name = some calls ∧ ReadsToEnd calls) ∧
        e.start ≤ e.initialized ∧ e.start ≤ e.finished := by
  have key := C74_finishes e hr1 hr2 hlg hd hd8 args
    (fun name => (fs name).map fun calls => (readBytes ⟨[], calls⟩).map fun x => x.map bitsOf) (by
      intro name file h
      obtain ⟨calls, hc, rfl⟩ := Option.map_eq_some_iff.mp h
      refine ⟨?_, ?_⟩
      · have : (delivered (⟨[], calls⟩ : BufReader).calls).length < 2 ^ 35 := hfs name calls hc
        rw [List.length_map]
        by_cases hr : ReadsToEnd calls
        · rw [(readBytes_spec ⟨[], calls⟩).1 hr, List.length_map, List.nil_append]
          exact this.le
        · rw [(readBytes_spec ⟨[], calls⟩).2 hr, List.length_append, List.length_map, List.nil_append]
          exact this
      · intro b hb
        obtain ⟨x, -, hx⟩ := List.mem_map.mp hb
        obtain ⟨v, -, rfl⟩ := Option.map_eq_some_iff.mp hx
        exact bitsOf_length v)
  have h1 : (program near message e args fs).exit = 0 ↔ (programReport e args fs).isSome = true := by
    unfold program
    cases programReport e args fs <;> simp
  rw [h1]
  refine key.trans (and_congr_left fun _ => ?_)
  constructor
  · rintro ⟨name, file, hn, hf, hno⟩
    obtain ⟨calls, hc, rfl⟩ := Option.map_eq_some_iff.mp hf
    refine ⟨name, calls, hn, hc, (readBytes_none calls).mp fun hm => hno (List.mem_map.mpr ⟨none, hm, rfl⟩)⟩
  · rintro ⟨name, calls, hn, hc, hr⟩
    refine ⟨name, _, hn, by rw [hc]; rfl, ?_⟩
    intro hm
    obtain ⟨x, hx, h0⟩ := List.mem_map.mp hm
    cases x with
    | none => exact (readBytes_none calls).mpr hr hx
    | some v => cases h0

/-- **C93 (delivery).** Only the bytes of the file and whether it can be read to its end matter: not the portions in which the
operating system hands them out, not interruptions, not what further calls would give; of the arguments only the first after
the name of the program. -/
theorem C93_delivery (near : ℚ → ℕ) (message : List Char) (e : Platform) (args args' : List String)
    (fs fs' : String → Option (List ReadCall)) (ha : args[1]? = args'[1]?)
    (hs : ∀ name, args[1]? = some name → ((fs name).isSome = (fs' name).isSome ∧
      ∀ calls calls', fs name = some calls → fs' name = some calls' →
        delivered calls = delivered calls' ∧ (ReadsToEnd calls ↔ ReadsToEnd calls'))) :
    program near message e args fs = program near message e args' fs' := by
  have : programReport e args fs = programReport e args' fs' := by
    unfold programReport mainRun
    rw [← ha]
    cases hn : args[1]? with
    | none => rfl
    | some name =>
      obtain ⟨h1, h2⟩ := hs name hn
      rw [ob_some, ob_some]
      dsimp only
      cases hf : fs name with
      | none =>
        rw [hf] at h1
        rw [show fs' name = none from Option.not_isSome_iff_eq_none.mp (by rw [← h1]; simp)]
      | some calls =>
        rw [hf] at h1
        obtain ⟨calls', hf'⟩ := Option.isSome_iff_exists.mp h1.symm
        obtain ⟨h3, h4⟩ := h2 calls calls' hf hf'
        rw [hf', Option.map_some, Option.map_some, ob_some, ob_some]
        congr 2
        by_cases hr : ReadsToEnd calls
        · rw [(readBytes_spec ⟨[], calls⟩).1 hr, (readBytes_spec ⟨[], calls'⟩).1 (h4.mp hr), h3]
        · rw [(readBytes_spec ⟨[], calls⟩).2 hr, (readBytes_spec ⟨[], calls'⟩).2 (fun h => hr (h4.mpr h)), h3]
  unfold program
  rw [this]

/-! ## Examples -/

/-- the same two bytes in one portion, and in two with an interruption between them; a failure behind the end does no harm -/
example : delivered [.data [97, 98], .data []] = [97, 98] ∧
    delivered [.interrupted, .data [97], .interrupted, .data [98], .data [], .failed] = [97, 98] ∧
    ReadsToEnd [.interrupted, .data [97], .interrupted, .data [98], .data [], .failed] ∧
    ¬ ReadsToEnd [.data [97], .failed, .data [98]] := by
  refine ⟨rfl, rfl, ?_, ?_⟩ <;> decide +kernel

/-- bits of `a` -/
example : bitsOf 97 = [false, true, true, false, false, false, false, true] := by decide +kernel

/-- a file that is delivered in two portions, and one whose second portion fails -/
def sampleFiles (name : String) : Option (List ReadCall) :=
  if name = "ab" then some [.data [97], .interrupted, .data [98]] else
  if name = "bad" then some [.data [97], .failed] else none

theorem sample_short (name : String) (calls : List ReadCall) (h : sampleFiles name = some calls) :
    (delivered calls).length < 2 ^ 35 := by
  rw [sampleFiles] at h
  split_ifs at h <;> obtain rfl := Option.some.inj h
  · exact (by norm_num : 2 < 2 ^ 35)
  · exact (by norm_num : 1 < 2 ^ 35)

/-- with an accurate logarithm and a sane clock the program ends with code 0 for the first one, and with code 101 for the
second and without an argument -/
example (near : ℚ → ℕ) (message : List Char) (lg : ℚ → ℚ) (hlg : LogWithin lg (1 / 2 ^ 52)) :
    (program near message ⟨lg, 1000, 2000, 5000000⟩ ["demixer", "ab", "more"] sampleFiles).exit = 0 ∧
    (program near message ⟨lg, 1000, 2000, 5000000⟩ ["demixer", "bad"] sampleFiles).exit ≠ 0 ∧
    (program near message ⟨lg, 1000, 2000, 5000000⟩ ["demixer"] sampleFiles).exit ≠ 0 := by
  have key := fun args => C93_ending near message ⟨lg, 1000, 2000, 5000000⟩ (by norm_num) (by norm_num) hlg (by norm_num)
    (by norm_num) args sampleFiles sample_short
  simp only [ne_eq, key]
  refine ⟨⟨⟨"ab", _, rfl, by simp only [sampleFiles]; rfl, by decide +kernel⟩, by norm_num, by norm_num⟩, ?_, ?_⟩
  · rintro ⟨⟨name, calls, hn, hc, hr⟩, -⟩
    obtain rfl : "bad" = name := by simpa using hn
    obtain rfl := Option.some.inj ((by decide +kernel : sampleFiles "bad" = some [.data [97], .failed]).symm.trans hc)
    revert hr
    decide +kernel
  · rintro ⟨⟨name, calls, hn, hc, hr⟩, -⟩
    cases hn

/-- such a logarithm exists -/
example : ∃ lg, LogWithin lg (1 / 2 ^ 52) := log_exists

end Verif.Pred
