import Verif.Model.Io

/-!
# Specification for the WAV properties

A recording is a number of frames, a number of channels and one value per (frame, channel).  Nothing here
mentions bytes, headers or the helpers of the reader/writer.
-/

namespace Verif.Io

structure Signal (α : Type) where
  frames : Nat
  chans : Nat
  samp : Fin frames → Fin chans → α

namespace Signal

def map {α β : Type} (f : α → β) (s : Signal α) : Signal β := ⟨s.frames, s.chans, fun t c => f (s.samp t c)⟩

/-- Frames `o, …, o+k-1`. -/
def window {α : Type} (s : Signal α) (o k : Nat) (h : o + k ≤ s.frames) : Signal α :=
  ⟨k, s.chans, fun t c => s.samp ⟨o + t.val, by omega⟩ c⟩

end Signal

/-- The recording that an array denotes under a `channels_first` flag; `none` if its rank is not 1 or 2. -/
def NdArr.denotes {α : Type} (a : NdArr α) (channels_first : Bool) : Option (Signal α) :=
  match a with
  | .d1 l => some ⟨l.length, 1, fun t _ => l.get t⟩
  | .d2 r c g => some (if channels_first then ⟨c, r, fun t ch => g ch t⟩ else ⟨r, c, g⟩)
  | .other _ => none

/-- The array a reader that asked for `return_2d` / `channels_first` should get for a recording:
1-D only for a single channel without `return_2d`. -/
def Signal.present (s : Signal ℚ) (return_2d channels_first : Bool) : NdArr ℚ :=
  if h : s.chans = 1 ∧ return_2d = false then
    .d1 (List.ofFn fun t => s.samp t ⟨0, by omega⟩)
  else if channels_first then .d2 s.chans s.frames fun c t => s.samp t c
  else .d2 s.frames s.chans s.samp

/-- Recording in file units denoted by an integer waveform: the sample divided by `2^(bits-1)`. -/
def Waveform.recording (wf : Waveform) (channels_first : Bool) : Option (Signal ℚ) :=
  match wf with
  | .i1 a => (a.denotes channels_first).map (Signal.map fun v => (v.toInt : ℚ) / 2 ^ 7)
  | .i2 a => (a.denotes channels_first).map (Signal.map fun v => (v.toInt : ℚ) / 2 ^ 15)
  | _ => none

end Verif.Io

namespace Verif.Io

/-- `v` is one of the samples of an array. -/
def NdArr.HasSample (v : ℚ) : NdArr ℚ → Prop
  | .d1 l => v ∈ l
  | .d2 _ _ g => ∃ i j, g i j = v
  | .other _ => False

/-- Unsigned little-endian 16-bit field at byte `p` of a file (0 beyond the end). -/
def u16At (file : Bytes) (p : Nat) : Nat := (file.getD p 0).toNat + 256 * (file.getD (p + 1) 0).toNat

/-- Unsigned little-endian 32-bit field at byte `p` of a file. -/
def u32At (file : Bytes) (p : Nat) : Nat :=
  (file.getD p 0).toNat + 2 ^ 8 * (file.getD (p + 1) 0).toNat + 2 ^ 16 * (file.getD (p + 2) 0).toNat
    + 2 ^ 24 * (file.getD (p + 3) 0).toNat

/-- Two's complement value of the `s` bytes at `p`: `Σ b_i 256^i`, minus `256^s` when the top bit is set. -/
def sampleAt (file : Bytes) (p s : Nat) : Int :=
  let u : Nat := (List.range s).foldr (fun i acc => (file.getD (p + i) 0).toNat * 256 ^ i + acc) 0
  if 128 ≤ (file.getD (p + s - 1) 0).toNat then (u : Int) - (256 ^ s : Nat) else u

end Verif.Io
