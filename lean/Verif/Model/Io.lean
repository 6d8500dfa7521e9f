import Verif.Model.PyErr
import Mathlib.Data.Rat.Floor

/-!
# Model of `ssspy/io/__init__.py`

Files are lists of bytes.  Samples of integer waveforms are bit vectors, samples of float waveforms are
exact rationals (every finite float is one).
-/

namespace Verif.Io

abbrev Bytes := List UInt8

/-- An `numpy.ndarray` as far as `ssspy.io` can tell arrays apart: 1-D, 2-D, or any other rank. -/
inductive NdArr (α : Type) where
  | d1 (data : List α)
  | d2 (rows cols : Nat) (get : Fin rows → Fin cols → α)
  | other (ndim : Nat)

/-- `waveform` argument of `wavwrite`, split by the dtype classes tested in `io/__init__.py` L83-95. -/
inductive Waveform where
  | float (a : NdArr ℚ)              -- dtype in ["f2", "f4", "f8", "f16"]
  | i1 (a : NdArr (BitVec 8))        -- dtype == "i1"
  | i2 (a : NdArr (BitVec 16))       -- dtype == "i2"
  | otherDtype (a : NdArr Unit)      -- anything else

/-! ## `struct` -/

/-- `k` little-endian bytes of `n` (the payload of `struct.pack("<I", n)`, `"<H"`). -/
def leBytes : Nat → Nat → Bytes
  | 0, _ => []
  | k + 1, n => UInt8.ofNat n :: leBytes k (n / 256)

/-- Little-endian value of a byte string (`struct.unpack`). -/
def leNat : Bytes → Nat
  | [] => 0
  | b :: bs => b.toNat + 256 * leNat bs

/-- `struct.pack` of one unsigned `k`-byte field: `struct.error` when out of range. -/
def pack (k : Nat) (n : Int) : Except PyErr Bytes :=
  if 0 ≤ n ∧ n.toNat < 256 ^ k then .ok (leBytes k n.toNat) else .error .struct

/-- `struct.unpack` of one unsigned `k`-byte field of exactly `k` bytes. -/
def unpack (k : Nat) (b : Bytes) : Except PyErr Nat :=
  if b.length = k then .ok (leNat b) else .error .struct

/-- ASCII literal. -/
def ascii (s : List Char) : Bytes := s.map fun c => UInt8.ofNat c.toNat

/-- `b"RIFF"` etc. -/
def RIFF : Bytes := ascii ['R', 'I', 'F', 'F']
def WAVE : Bytes := ascii ['W', 'A', 'V', 'E']
def FMT : Bytes := ascii ['f', 'm', 't', ' ']
def DATA : Bytes := ascii ['d', 'a', 't', 'a']

/-! ## Reading -/

/-- Two's complement value of an `s`-byte little-endian sample (`dtype="<i{s}"`). -/
def decodeSample (b : Bytes) : Int :=
  if 2 * leNat b < 256 ^ b.length then (leNat b : Int) else (leNat b : Int) - (256 ^ b.length : Nat)

/-- `count` consecutive samples of `s` bytes. -/
def decodeSamples (s : Nat) : Nat → Bytes → List Int
  | 0, _ => []
  | k + 1, b => decodeSample (b.take s) :: decodeSamples s k (b.drop s)

/-- `np.memmap(f, dtype="<i{s}", mode="c", offset=start, shape=(count,))`, L173: `TypeError` for a dtype
that does not exist, `ValueError`/`OverflowError` for a negative offset or size or a window beyond the end
of the file.  (Simplified: the page-aligned zero-length corner case of old NumPy versions is treated as the
ordinary empty window.) -/
def memmap (file : Bytes) (s : Nat) (start count : Int) : Except PyErr (List Int) :=
  if s = 1 ∨ s = 2 ∨ s = 4 ∨ s = 8 then
    if 0 ≤ start ∧ 0 ≤ count ∧ start + count * s ≤ file.length then
      .ok (decodeSamples s count.toNat (file.drop start.toNat))
    else .error .value
  else .error .type

/-- `_read_fmt_chunk`, L124-145.  `f` is the unread rest of the file. Returns the fields and the new rest. -/
def readFmtChunk (f : Bytes) : Except PyErr ((Nat × Nat × Nat) × Bytes) := do
  let size ← unpack 4 (f.take 4)
  if size ≠ 16 then throw .notImplemented
  let f := f.drop 4
  let fmt ← unpack 2 (f.take 2)
  if fmt ≠ 1 then throw .notImplemented
  let f := f.drop 2
  -- struct.unpack("<HIIHH", f.read(14))
  if (f.take 14).length ≠ 14 then throw .struct
  let n_channels := leNat (f.take 2)
  let sample_rate := leNat ((f.drop 2).take 4)
  let byte_rate := leNat ((f.drop 6).take 4)
  let block_align := leNat ((f.drop 10).take 2)
  let bits_per_sample := leNat ((f.drop 12).take 2)
  if bits_per_sample * sample_rate * n_channels ≠ 8 * byte_rate then throw .value
  return ((n_channels, sample_rate, block_align), f.drop 14)

/-- `data.reshape(-1, c)` for `c > 0` (L176, L182). -/
def reshape2 (l : List ℚ) (c : Nat) : Except PyErr (NdArr ℚ) :=
  if l.length % c = 0 then
    .ok (.d2 (l.length / c) c fun i j => l.getD (i.val * c + j.val) 0)
  else .error .value

/-- `data.transpose(1, 0)`. -/
def NdArr.transpose {α : Type} : NdArr α → NdArr α
  | .d2 r c g => .d2 c r fun i j => g j i
  | a => a

/-- Layout requested by the caller, L175-190: more than one channel or `return_2d` gives a 2-D array, frames
first unless `channels_first`; otherwise 1-D. -/
def finish (n_channels : Nat) (data : List ℚ) (return_2d channels_first : Bool) : Except PyErr (NdArr ℚ) :=
  if 1 < n_channels ∨ return_2d = true then
    (reshape2 data n_channels).map fun a => if channels_first then a.transpose else a
  else .ok (.d1 data)

/-- `_read_data_chunk`, L148-192.  `file` is the whole file, `f` its unread rest (so `f.tell()` is
`file.length - f.length`). Division by `vmax` (exact in float64 for 1-, 2- and 4-byte samples) is done
before the layout change, which commutes with it. -/
def readDataChunk (file f : Bytes) (n_channels block_align : Nat) (frame_offset : Int)
    (num_frames : Option Int) (return_2d channels_first : Bool) : Except PyErr (NdArr ℚ) := do
  let data_chunk_size ← unpack 4 (f.take 4)
  let f := f.drop 4
  if n_channels = 0 then throw .zeroDivision
  let bytes_per_sample := block_align / n_channels
  if bytes_per_sample = 0 then throw .zeroDivision
  let n_full_samples := data_chunk_size / bytes_per_sample
  let start : Int := (file.length - f.length : Nat) + block_align * frame_offset
  let max_frame : Int := (data_chunk_size / block_align : Nat)
  let (shape, end_frame) ← (match num_frames with
    | none => .ok ((n_full_samples : Int) - n_channels * frame_offset, max_frame)
    | some k =>
      if 0 ≤ k then .ok ((n_channels : Int) * k, frame_offset + k) else .error .value :
      Except PyErr (Int × Int))
  if end_frame > max_frame then throw .value
  let raw ← memmap file bytes_per_sample start shape
  let vmax : ℚ := 2 ^ (8 * bytes_per_sample - 1)
  finish n_channels (raw.map fun (v : Int) => (v : ℚ) / vmax) return_2d channels_first

/-- `wavread`, L8-53, on the bytes of the file at `path`.  `return_2d=None` and `channels_first=None` behave
like `False`. -/
def wavread (file : Bytes) (frame_offset : Int := 0) (num_frames : Option Int := none)
    (return_2d : Bool := false) (channels_first : Bool := false) : Except PyErr (NdArr ℚ × Nat) := do
  let f := file
  if f.take 4 ≠ RIFF then throw .notImplemented
  let f := f.drop 4
  let _ ← unpack 4 (f.take 4)
  let f := f.drop 4
  if f.take 4 ≠ WAVE then throw .notImplemented
  let f := f.drop 4
  if f.take 4 ≠ FMT then throw .notImplemented
  let f := f.drop 4
  let ((n_channels, sample_rate, block_align), f) ← readFmtChunk f
  if f.take 4 ≠ DATA then throw .notImplemented
  let f := f.drop 4
  let data ← readDataChunk file f n_channels block_align frame_offset num_frames return_2d channels_first
  return (data, sample_rate)

/-! ## Writing -/

/-- Channel-count check L70-73 and `_waveform.flatten()` of a `frames × channels` array (L223). -/
def flattenChecked {α : Type} (r c : Nat) (g : Fin r → Fin c → α) : Except PyErr (Nat × List α) :=
  if c < 1 ∨ 2 < c then .error .value
  else .ok (c, (List.ofFn fun i => List.ofFn fun j => g i j).flatten)

/-- Layout step L64-80: rows become frames and columns channels. Returns the number of channels and the
interleaved samples. -/
def layout {α : Type} (a : NdArr α) (channels_first : Bool) : Except PyErr (Nat × List α) :=
  match a with
  | .d1 l => .ok (1, l)
  | .d2 r c g => if channels_first then flattenChecked c r (fun i j => g j i) else flattenChecked r c g
  | .other _ => .error .value

/-- Truncation towards zero (`astype` from float to integer). -/
def truncZero (x : ℚ) : Int := if 0 ≤ x then ⌊x⌋ else ⌈x⌉

/-- `(_waveform * 2 ** 15).astype("<i2")`, L86-88.  C leaves the cast of values outside the int16 range
undefined; `castOut` is whatever the platform does there. -/
def floatToI2 (castOut : Int → BitVec 16) (x : ℚ) : BitVec 16 :=
  let v := truncZero (x * 2 ^ 15)
  if -(2 ^ 15) ≤ v ∧ v < 2 ^ 15 then BitVec.ofInt 16 v else castOut v

/-- Bytes of a `w`-bit sample, `k` bytes, in memory order of a little-endian machine. -/
def encodeSample (k : Nat) {w : Nat} (v : BitVec w) : Bytes := leBytes k v.toNat

/-- Validation and conversion of L62-103, before the file is opened: number of channels, bits per sample and
data bytes. -/
def prepare (castOut : Int → BitVec 16) (wf : Waveform) (channels_first : Bool) :
    Except PyErr (Nat × Nat × Bytes) :=
  match wf with
  | .float a => do
    let (c, l) ← layout a channels_first
    return (c, 16, (l.map fun x => encodeSample 2 (floatToI2 castOut x)).flatten)
  | .i1 a => do
    let (c, l) ← layout a channels_first
    return (c, 8, (l.map fun x => encodeSample 1 x).flatten)
  | .i2 a => do
    let (c, l) ← layout a channels_first
    return (c, 16, (l.map fun x => encodeSample 2 x).flatten)
  | .otherDtype a => do
    let _ ← layout a channels_first
    throw .value

/-- Data passed to successive `f.write` calls; an element is an error when building it raises. -/
abbrev Writes := List (Except PyErr Bytes)

/-- `_write_fmt_chunk`, L195-213 (the `"<HIIHH"` record is packed as a whole). -/
def writeFmtChunk (n_channels sample_rate byte_rate block_align bits : Int) : Writes :=
  [ .ok FMT, pack 4 16, pack 2 1,
    (do
      let a ← pack 2 n_channels
      let b ← pack 4 sample_rate
      let c ← pack 4 byte_rate
      let d ← pack 2 block_align
      let e ← pack 2 bits
      return a ++ b ++ c ++ d ++ e) ]

/-- `_write_data_chunk`, L216-226. -/
def writeDataChunk (data : Bytes) : Writes := [ .ok DATA, pack 4 data.length, .ok data ]

/-- Perform writes until one raises: bytes appended so far, and the exception if any. -/
def runWrites : Writes → Bytes × Option PyErr
  | [] => ([], none)
  | .error e :: _ => ([], some e)
  | .ok b :: ws => let (bs, e) := runWrites ws; (b ++ bs, e)

/-- One byte reaching the file: position and value. -/
abbrev ByteOp := Nat × UInt8

/-- Effect of one byte write (positions never exceed the current length). -/
def applyOp (file : Bytes) (op : ByteOp) : Bytes :=
  if op.1 < file.length then file.set op.1 op.2 else file ++ [op.2]

/-- File contents after a sequence of byte writes, starting from the empty file (`mode="wb"`). -/
def applyOps (ops : List ByteOp) : Bytes := ops.foldl applyOp []

/-- Bytes written consecutively from position `pos`. -/
def opsAt (pos : Nat) (b : Bytes) : List ByteOp := b.zipIdx pos |>.map fun p => (p.2, p.1)

/-- Result of a `wavwrite` call: the bytes written in order (`none` when the file was not even opened) and
the exception raised, if any. -/
structure WriteRun where
  ops : Option (List ByteOp)
  err : Option PyErr

/-- End of `wavwrite` (L117-121): seek back and patch the RIFF size, unless an earlier write raised. -/
def finishWrite (w : Bytes × Option PyErr) : WriteRun :=
  match w.2 with
  | some e => ⟨some (opsAt 0 w.1), some e⟩
  | none =>
    match pack 4 ((w.1.length : Int) - 8) with
    | .error e => ⟨some (opsAt 0 w.1), some e⟩
    | .ok patch => ⟨some (opsAt 0 w.1 ++ opsAt 4 patch), none⟩

/-- Body of the `with open(...)` block of `wavwrite`, L97-121 (including the rate arithmetic in front of it). -/
def writeFile (sample_rate : Int) (p : Nat × Nat × Bytes) : WriteRun :=
  -- byte_rate = (bits * sample_rate * n_channels) // 8 ; block_align = byte_rate // sample_rate
  if sample_rate = 0 then ⟨none, some .zeroDivision⟩
  else finishWrite (runWrites
    ([.ok RIFF, pack 4 0, .ok WAVE]
      ++ writeFmtChunk p.1 sample_rate (((p.2.1 : Int) * sample_rate * p.1) / 8)
          ((((p.2.1 : Int) * sample_rate * p.1) / 8).fdiv sample_rate) p.2.1
      ++ writeDataChunk p.2.2))

/-- `wavwrite`, L56-121. -/
def wavwrite (castOut : Int → BitVec 16) (path : List Char) (wf : Waveform) (sample_rate : Int)
    (channels_first : Bool) : WriteRun :=
  -- assert path[-4:] == ".wav"
  if path.drop (path.length - 4) ≠ ['.', 'w', 'a', 'v'] then ⟨none, some .assertion⟩
  else match prepare castOut wf channels_first with
  | .error e => ⟨none, some e⟩
  | .ok p => writeFile sample_rate p

/-- Contents of the file after a successful `wavwrite`. -/
def WriteRun.file (r : WriteRun) : Bytes := applyOps (r.ops.getD [])

/-- Contents of the file when the process stops after `k` byte writes. -/
def WriteRun.crashFile (r : WriteRun) (k : Nat) : Bytes := applyOps ((r.ops.getD []).take k)

end Verif.Io
