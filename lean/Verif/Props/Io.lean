import Verif.Lemmas.Io
import Mathlib.Tactic.NormNum

/-! # Properties C01–C07: WAV files -/

namespace Verif.Io

/-- Stand-in for the platform's out-of-range float → int16 cast: keep the low 16 bits. -/
def wrapCast (v : Int) : BitVec 16 := BitVec.ofInt 16 v

/-- A stereo int16 clip used in the examples: 3 frames, 2 channels. -/
def clip : Waveform := .i2 (.d2 3 2 fun t c => BitVec.ofInt 16 (1000 * t.val - 7 * c.val))

def clipPath : List Char := ['a', '.', 'w', 'a', 'v']

/-! ## C01 -/

/-- C01. Whatever integer waveform was accepted by `wavwrite`, `wavread` of the file gives back the recording
the waveform denotes, in the layout asked for, with the same rate. -/
theorem C01_wav_round_trip (castOut : Int → BitVec 16) (path : List Char) (wf : Waveform) (rate : Int)
    (cfw : Bool) (sig : Signal ℚ) (hsig : wf.recording cfw = some sig)
    (hok : (wavwrite castOut path wf rate cfw).err = none) (r2 cfr : Bool) :
    wavread (wavwrite castOut path wf rate cfw).file 0 none r2 cfr =
      .ok (sig.present r2 cfr, rate.toNat) := by
  obtain ⟨-, sig', s, data, r, h1, ⟨P⟩, rfl, -, hfit, -, -, -, hfile⟩ :=
    wavwrite_success castOut path wf rate cfw hok
  have hsame : sig' = sig := by
    cases wf with
    | float a => simp [Waveform.recording] at hsig
    | i1 a => simpa [Waveform.stored, hsig] using h1.symm
    | i2 a => simpa [Waveform.stored, hsig] using h1.symm
    | otherDtype a => simp [Waveform.recording] at hsig
  subst hsame
  rw [hfile, image]
  have := read_image_none P r hfit (leBytes 4 (36 + data.length)) (by simp) data.length 0 r2 cfr
  rw [List.take_length] at this
  rw [show (0 : Int) = ((0 : Nat) : Int) from rfl, this, dif_pos ⟨by omega, le_refl _⟩]
  simp [Signal.window]

/-- The hypotheses of C01 are met by a stereo clip written channels-last. -/
example : (wavwrite wrapCast clipPath clip 16000 false).err = none := by decide +kernel
example : (clip.recording false).isSome := rfl

/-! ## C02 -/

/-- C02. Partial reads of a written file are exactly the requested frames of the full read, and windows that
do not fit raise. -/
theorem C02_partial_reads_are_slices (castOut : Int → BitVec 16) (path : List Char) (wf : Waveform) (rate : Int)
    (cfw : Bool) (hok : (wavwrite castOut path wf rate cfw).err = none) :
    ∃ sig : Signal ℚ, (∀ s0, wf.recording cfw = some s0 → sig = s0) ∧ ∀ (r2 cfr : Bool),
      wavread (wavwrite castOut path wf rate cfw).file 0 none r2 cfr = .ok (sig.present r2 cfr, rate.toNat) ∧
      (∀ o k : Nat, ∀ h : o + k ≤ sig.frames,
        wavread (wavwrite castOut path wf rate cfw).file o (some k) r2 cfr =
          .ok ((sig.window o k h).present r2 cfr, rate.toNat)) ∧
      (∀ o k : Nat, ¬ o + k ≤ sig.frames →
        Raises (wavread (wavwrite castOut path wf rate cfw).file o (some k) r2 cfr)) ∧
      (∀ o : Nat, ∀ h : o ≤ sig.frames,
        wavread (wavwrite castOut path wf rate cfw).file o none r2 cfr =
          .ok ((sig.window o (sig.frames - o) (by omega)).present r2 cfr, rate.toNat)) ∧
      (∀ o : Nat, ¬ o ≤ sig.frames →
        Raises (wavread (wavwrite castOut path wf rate cfw).file o none r2 cfr)) := by
  obtain ⟨-, sig, s, data, r, h1, ⟨P⟩, rfl, -, hfit, -, -, -, hfile⟩ :=
    wavwrite_success castOut path wf rate cfw hok
  have hrec : ∀ s0, wf.recording cfw = some s0 → sig = s0 := by
    intro s0 hsig
    cases wf with
    | float a => simp [Waveform.recording] at hsig
    | i1 a => simpa [Waveform.stored, hsig] using h1.symm
    | i2 a => simpa [Waveform.stored, hsig] using h1.symm
    | otherDtype a => simp [Waveform.recording] at hsig
  refine ⟨sig, hrec, fun r2 cfr => ?_⟩
  have hn := fun o => read_image_none P r hfit (leBytes 4 (36 + data.length)) (by simp) data.length o r2 cfr
  have hw := fun o k => read_image P r hfit (leBytes 4 (36 + data.length)) (by simp) data.length o k r2 cfr
  rw [List.take_length] at hn hw
  rw [hfile, image]
  have hdl : data.length = s * P.l.length :=
    (congrArg List.length P.hdata).trans (length_flatten_const _ _ _ P.hlen)
  have htot : ∀ o k, o + k ≤ sig.frames → s * sig.chans * o + s * sig.chans * k ≤ min data.length data.length := by
    intro o k h
    rw [min_self, hdl, P.hl, ← Nat.mul_add]
    calc s * sig.chans * (o + k) ≤ s * sig.chans * sig.frames := Nat.mul_le_mul_left _ h
      _ = s * (sig.frames * sig.chans) := by ring
  refine ⟨?_, ?_, ?_, ?_, ?_⟩
  · rw [show (0 : Int) = ((0 : Nat) : Int) from rfl, hn 0, dif_pos ⟨by omega, le_refl _⟩]
    simp [Signal.window]
  · intro o k h
    rw [hw, dif_pos ⟨h, htot o k h⟩]; rfl
  · intro o k h
    exact ⟨_, by rw [hw, dif_neg (fun h' => h h'.1)]⟩
  · intro o h
    rw [hn, dif_pos ⟨h, le_refl _⟩]; rfl
  · intro o h
    exact ⟨_, by rw [hn, dif_neg (fun h' => h h'.1)]⟩

/-- C02, last clause: a negative number of frames always raises, on any file. -/
theorem C02_negative_num_frames_raises (file : Bytes) (o k : Int) (hk : k < 0) (r2 cf : Bool) :
    Raises (wavread file o (some k) r2 cf) := by
  cases h : wavread file o (some k) r2 cf with
  | error e => exact ⟨e, rfl⟩
  | ok v =>
    exfalso
    obtain ⟨hl, -, -, -, -, -, -, -, -, hd⟩ := wavread_inv file o (some k) r2 cf v.1 v.2 h
    obtain ⟨_, _, _, _, _, ⟨h0, _, _⟩, _⟩ := readDataChunk_inv file hl _ _ o (some k) r2 cf v.1 hd
    omega

example : ∃ sig, clip.recording false = some sig ∧ 1 + 2 ≤ sig.frames := ⟨_, rfl, by decide⟩

/-! ## C03 -/

/-- C03. The header of every written file agrees with its contents (offsets of the RIFF/WAVE format). -/
theorem C03_header_consistent (castOut : Int → BitVec 16) (path : List Char) (wf : Waveform) (rate : Int)
    (cfw : Bool) (hok : (wavwrite castOut path wf rate cfw).err = none) :
    ∃ (sig : Signal ℚ) (bytes : Nat) (file : Bytes),
      file = (wavwrite castOut path wf rate cfw).file ∧
      wavread file 0 none = .ok (sig.present false false, rate.toNat) ∧
      (bytes = match wf with | .i1 _ => 1 | _ => 2) ∧
      file.length = 44 + sig.frames * sig.chans * bytes ∧
      u32At file 4 = file.length - 8 ∧
      u32At file 40 = file.length - 44 ∧
      (u32At file 24 : Int) = rate ∧
      u16At file 22 = sig.chans ∧
      u16At file 32 = sig.chans * bytes ∧
      u32At file 28 = rate.toNat * sig.chans * bytes ∧
      u16At file 34 = 8 * bytes := by
  obtain ⟨-, sig, s, data, r, -, ⟨P⟩, rfl, hr, hfit, hsz, hprep, -, hfile⟩ :=
    wavwrite_success castOut path wf rate cfw hok
  have hs := P.hs
  have hc := P.hc
  have hdl : data.length = s * P.l.length :=
    (congrArg List.length P.hdata).trans (length_flatten_const _ _ _ P.hlen)
  have hflen : (wavwrite castOut path wf r cfw).file.length = 44 + data.length := by
    rw [hfile, length_image _ (by simp)]
  refine ⟨sig, s, (wavwrite castOut path wf r cfw).file, rfl, ?_, ?_, ?_, ?_⟩
  · rw [hfile, image]
    have := read_image_none P r hfit (leBytes 4 (36 + data.length)) (by simp) data.length 0 false false
    rw [List.take_length] at this
    rw [show (0 : Int) = ((0 : Nat) : Int) from rfl, this, dif_pos ⟨by omega, le_refl _⟩]
    simp [Signal.window]
  · cases wf with
    | otherDtype a => simp only [prepare, bind, Except.bind] at hprep; split at hprep <;> cases hprep
    | i1 a =>
      simp only [prepare, bind, Except.bind] at hprep
      split at hprep
      · cases hprep
      · injection hprep with h1; injection h1 with h1 h2; injection h2 with h2 h3; simp only; omega
    | i2 a =>
      simp only [prepare, bind, Except.bind] at hprep
      split at hprep
      · cases hprep
      · injection hprep with h1; injection h1 with h1 h2; injection h2 with h2 h3; simp only; omega
    | float a =>
      simp only [prepare, bind, Except.bind] at hprep
      split at hprep
      · cases hprep
      · injection hprep with h1; injection h1 with h1 h2; injection h2 with h2 h3; simp only; omega
  · rw [hflen, hdl, P.hl]; ring
  · have hL : 44 ≤ (wavwrite castOut path wf r cfw).file.length := by omega
    rw [← take_drop_four _ 4 (by omega), ← take_drop_four _ 40 (by omega), ← take_drop_four _ 24 (by omega),
      ← take_drop_two _ 22 (by omega), ← take_drop_two _ 32 (by omega), ← take_drop_four _ 28 (by omega),
      ← take_drop_two _ 34 (by omega), hflen, hfile]
    obtain ⟨a0, a1, a2, a3, ea, va⟩ := exists_le4 (36 + data.length) hsz
    obtain ⟨b0, b1, eb, vb⟩ := exists_le2 sig.chans (by omega)
    obtain ⟨c0, c1, c2, c3, ec, vc⟩ := exists_le4 r hfit.1
    obtain ⟨d0, d1, d2, d3, ed, vd⟩ := exists_le4 (s * r * sig.chans) hfit.2.1
    obtain ⟨e0, e1, ee, ve⟩ := exists_le2 (s * sig.chans)
      (by rcases hs with h | h <;> rcases hc with h' | h' <;> simp [h, h'])
    obtain ⟨f0, f1, ef, vf⟩ := exists_le2 (8 * s) (by omega)
    obtain ⟨g0, g1, g2, g3, eg, vg⟩ := exists_le4 data.length hfit.2.2
    rw [image, header, ea, eb, ec, ed, ee, ef, eg]
    have k1 : ∀ (i j : Bytes) (hi : i.length = 4) (hj : j.length = 2),
        ∀ full, full = RIFF ++ [a0, a1, a2, a3] ++ WAVE ++ (FMT ++ i ++ j ++
          ([b0, b1] ++ [c0, c1, c2, c3] ++ [d0, d1, d2, d3] ++ [e0, e1] ++ [f0, f1])) ++
          (DATA ++ [g0, g1, g2, g3]) ++ data →
        (full.drop 4).take 4 = [a0, a1, a2, a3] ∧ (full.drop 40).take 4 = [g0, g1, g2, g3] ∧
        (full.drop 24).take 4 = [c0, c1, c2, c3] ∧ (full.drop 22).take 2 = [b0, b1] ∧
        (full.drop 32).take 2 = [e0, e1] ∧ (full.drop 28).take 4 = [d0, d1, d2, d3] ∧
        (full.drop 34).take 2 = [f0, f1] := by
      intro i j hi hj full hfull
      obtain ⟨i0, i1, i2, i3, rfl⟩ := exists_four i hi
      obtain ⟨j0, j1, rfl⟩ := exists_two j hj
      rw [hfull]
      exact ⟨rfl, rfl, rfl, rfl, rfl, rfl, rfl⟩
    obtain ⟨q1, q2, q3, q4, q5, q6, q7⟩ := k1 (leBytes 4 16) (leBytes 2 1) (by simp) (by simp) _ rfl
    rw [q1, q2, q3, q4, q5, q6, q7, va, vb, vc, vd, ve, vf, vg]
    refine ⟨by omega, by omega, rfl, rfl, by ring, ?_, rfl⟩
    rw [Int.toNat_natCast]; ring

/-- C03, last clause: data that does not fit the 32-bit RIFF size is rejected. -/
theorem C03_oversize_rejected (castOut : Int → BitVec 16) (path : List Char) (wf : Waveform) (rate : Int)
    (cfw : Bool) (nch bits : Nat) (data : Bytes) (hprep : prepare castOut wf cfw = .ok (nch, bits, data))
    (hbig : 2 ^ 32 ≤ 36 + data.length) : (wavwrite castOut path wf rate cfw).err ≠ none := by
  intro h
  obtain ⟨-, sig, s, data', r, -, -, -, -, -, h4, hp, -⟩ := wavwrite_success castOut path wf rate cfw h
  rw [hprep] at hp
  injection hp with hp; injection hp with _ hp; injection hp with _ hp
  subst hp
  have : (256 : Nat) ^ 4 = 2 ^ 32 := by norm_num
  omega

example : (wavwrite wrapCast clipPath clip 16000 false).file.length = 44 + 3 * 2 * 2 := by decide +kernel

/-! ## C04 -/

/-- C04. If the process stops after any number `k` of the byte writes of a `wavwrite` run that would have
succeeded, then a later read of any window either raises or returns what the completed file would have
returned. -/
theorem C04_crash_never_wrong (castOut : Int → BitVec 16) (path : List Char) (wf : Waveform) (rate : Int)
    (cfw : Bool) (hok : (wavwrite castOut path wf rate cfw).err = none) (k : Nat)
    (o : Nat) (nf : Option Int) (r2 cfr : Bool) :
    Raises (wavread ((wavwrite castOut path wf rate cfw).crashFile k) o nf r2 cfr) ∨
    wavread ((wavwrite castOut path wf rate cfw).crashFile k) o nf r2 cfr =
      wavread (wavwrite castOut path wf rate cfw).file o nf r2 cfr := by
  obtain ⟨-, sig, s, data, r, -, ⟨P⟩, rfl, hr, hfit, hsz, hprep, hops, hfile⟩ :=
    wavwrite_success castOut path wf rate cfw hok
  have hcr : (wavwrite castOut path wf r cfw).crashFile k = applyOps ((opsAt 0 (image (leBytes 4 0) sig s r data) ++
      if true then opsAt 4 (leBytes 4 (36 + data.length)) else []).take k) := by
    rw [WriteRun.crashFile, hops]; rfl
  rw [hcr, hfile]
  rcases crash_shape (image (leBytes 4 0) sig s r data) (leBytes 4 (36 + data.length))
    (by rw [length_image _ (by simp)]; omega) true (by simp) sig s r data rfl k with h | ⟨s4, j, hs4, h⟩
  · exact Or.inl (wavread_short _ h _ _ _ _)
  · rw [h, image]
    have full := fun o nf => read_image P r hfit (leBytes 4 (36 + data.length)) (by simp) data.length o nf r2 cfr
    rw [List.take_length] at full
    have fulln := fun o => read_image_none P r hfit (leBytes 4 (36 + data.length)) (by simp) data.length o r2 cfr
    rw [List.take_length] at fulln
    cases nf with
    | none =>
      rw [read_image_none P r hfit s4 hs4 j o r2 cfr, fulln]
      by_cases h1 : o ≤ sig.frames ∧ data.length ≤ j
      · right; rw [dif_pos h1, dif_pos ⟨h1.1, le_refl _⟩]
      · left; rw [dif_neg h1]; exact ⟨_, rfl⟩
    | some n =>
      by_cases hn : 0 ≤ n
      · obtain ⟨n, rfl⟩ := Int.eq_ofNat_of_zero_le hn
        rw [read_image P r hfit s4 hs4 j o n r2 cfr, full]
        by_cases h1 : o + n ≤ sig.frames ∧ s * sig.chans * o + s * sig.chans * n ≤ min j data.length
        · right; rw [dif_pos h1, dif_pos ⟨h1.1, by have := h1.2; omega⟩]
        · left; rw [dif_neg h1]; exact ⟨_, rfl⟩
      · left; exact C02_negative_num_frames_raises _ _ _ (by omega) _ _

/-- C04 for runs that end in an exception themselves (header field overflow): whatever part of the file was
written, reading an integer waveform back raises or gives the requested frames. -/
theorem C04_failed_write_never_wrong (castOut : Int → BitVec 16) (path : List Char) (wf : Waveform) (rate : Int)
    (cfw : Bool) (sig : Signal ℚ) (hsig : wf.recording cfw = some sig)
    (hop : (wavwrite castOut path wf rate cfw).ops ≠ none) (k : Nat) (o : Nat) (n : Nat) (r2 cfr : Bool) :
    Raises (wavread ((wavwrite castOut path wf rate cfw).crashFile k) o (some n) r2 cfr) ∨
    ∃ h : o + n ≤ sig.frames, wavread ((wavwrite castOut path wf rate cfw).crashFile k) o (some n) r2 cfr =
      .ok ((sig.window o n h).present r2 cfr, rate.toNat) := by
  obtain ⟨hp, hr0, nch, bits, data, hprep⟩ := wavwrite_opened castOut path wf rate cfw hop
  obtain ⟨sig', s, h1, h2, h3, ⟨P⟩⟩ := prepare_spec castOut wf cfw nch bits data hprep
  have hsame : sig' = sig := by
    cases wf with
    | float a => simp [Waveform.recording] at hsig
    | i1 a => simpa [Waveform.stored, hsig] using h1.symm
    | i2 a => simpa [Waveform.stored, hsig] using h1.symm
    | otherDtype a => simp [Waveform.recording] at hsig
  subst hsame
  have main : ∀ r : Nat, Fits sig' s r data → ∀ patch : Bool,
      Raises (wavread (applyOps ((opsAt 0 (image (leBytes 4 0) sig' s r data) ++
        if patch then opsAt 4 (leBytes 4 (36 + data.length)) else []).take k)) o (some n) r2 cfr) ∨
      ∃ h : o + n ≤ sig'.frames, wavread (applyOps ((opsAt 0 (image (leBytes 4 0) sig' s r data) ++
        if patch then opsAt 4 (leBytes 4 (36 + data.length)) else []).take k)) o (some n) r2 cfr =
        .ok ((sig'.window o n h).present r2 cfr, r) := by
    intro r hfit patch
    rcases crash_shape (image (leBytes 4 0) sig' s r data) (leBytes 4 (36 + data.length))
      (by rw [length_image _ (by simp)]; omega) patch (by simp) sig' s r data rfl k with h | ⟨s4, j, hs4, h⟩
    · exact Or.inl (wavread_short _ h _ _ _ _)
    · rw [h, read_image P r hfit s4 hs4 j o n r2 cfr]
      by_cases h1 : o + n ≤ sig'.frames ∧ s * sig'.chans * o + s * sig'.chans * n ≤ min j data.length
      · right; exact ⟨h1.1, by rw [dif_pos h1]⟩
      · left; rw [dif_neg h1]; exact ⟨_, rfl⟩
  rcases wavwrite_cases castOut path wf rate cfw hp nch bits data hprep hr0 sig' s h2 h3 P with
    ⟨b, hb, e, -⟩ | ⟨r, rfl, -, hfit, ⟨-, e⟩ | ⟨-, e⟩⟩
  · left
    rw [e]
    apply wavread_short
    rw [WriteRun.crashFile, Option.getD_some, take_opsAt, applyOps_append0, List.length_take]
    omega
  · have := main r hfit true
    rw [e]; exact this
  · have := main r hfit false
    rw [e]
    simpa [WriteRun.crashFile] using this

example : (wavwrite wrapCast clipPath clip 16000 false).ops ≠ none :=
  wavwrite_err_none_opened _ _ _ _ _ (by decide +kernel)
/-- … and a run that raises after the file was opened: the rate does not fit 32 bits. -/
example : (wavwrite wrapCast clipPath clip (2 ^ 32) false).ops ≠ none ∧
    (wavwrite wrapCast clipPath clip (2 ^ 32) false).err = some .struct := by decide +kernel

/-! ## C05 -/

/-- C05 fails: with a negative `frame_offset` a one-frame file yields a sample that was never recorded
(it is the byte `'d'` of the chunk marker `data`). -/
theorem C05_negative_offset_reads_header :
    ∃ (wf : Waveform) (sig : Signal ℚ) (a : NdArr ℚ) (v : ℚ),
      wf.recording false = some sig ∧ (wavwrite wrapCast clipPath wf 8000 false).err = none ∧
      wavread (wavwrite wrapCast clipPath wf 8000 false).file (-8) (some 1) = .ok (a, 8000) ∧
      a.HasSample v ∧ ∀ t c, sig.samp t c ≠ v := by
  refine ⟨.i1 (.d1 [0]), _, .d1 [100 / 2 ^ 7], 100 / 2 ^ 7, rfl, by decide +kernel, ?_, by simp [NdArr.HasSample], ?_⟩
  · have hf : (wavwrite wrapCast clipPath (.i1 (.d1 [0])) 8000 false).file =
      [82, 73, 70, 70, 37, 0, 0, 0, 87, 65, 86, 69, 102, 109, 116, 32, 16, 0, 0, 0, 1, 0, 1, 0, 64, 31, 0, 0,
       64, 31, 0, 0, 1, 0, 8, 0, 100, 97, 116, 97, 1, 0, 0, 0, 0] := by decide +kernel
    rw [hf]
    simp [wavread, readFmtChunk, readDataChunk, unpack, leNat, RIFF, WAVE, FMT, DATA, ascii, memmap,
      decodeSamples, decodeSample, finish, bind, Except.bind, pure, Except.pure]
  · intro t c
    have ht : t = ⟨0, by decide⟩ := Fin.ext (by have := t.isLt; simp [Signal.map] at this ⊢; omega)
    subst ht
    simp [Signal.map]
    norm_num

/-- C05 for non-negative offsets, on *any* file whose block alignment is a multiple of the channel count (which
every file written by `wavwrite` satisfies): each returned sample is decoded from bytes of the data chunk. For
negative offsets this is false, see `C05_negative_offset_reads_header`. -/
theorem C05_samples_from_data_chunk (file : Bytes) (o : Int) (ho : 0 ≤ o) (k : Option Int) (r2 cf : Bool)
    (a : NdArr ℚ) (rate : Nat) (h : wavread file o k r2 cf = .ok (a, rate))
    (halign : u16At file 32 % u16At file 22 = 0) (v : ℚ) (hv : a.HasSample v) :
    ∃ p s, 44 ≤ p ∧ p + s ≤ 44 + u32At file 40 ∧ p + s ≤ file.length ∧ s = u16At file 32 / u16At file 22 ∧
      v = (sampleAt file p s : ℚ) / 2 ^ (8 * s - 1) := by
  obtain ⟨hl, -, -, -, -, -, -, -, -, hd⟩ := wavread_inv file o k r2 cf a rate h
  obtain ⟨s, cnt, hs, hn, hs0, hk, h0, hc0, hend, hval⟩ :=
    readDataChunk_inv file hl _ _ o k r2 cf a hd
  obtain ⟨i, hi, e⟩ := hval v hv
  have hsa : s * u16At file 22 = u16At file 32 := by
    rw [hs]; exact Nat.div_mul_cancel (Nat.dvd_of_mod_eq_zero halign)
  have hsaI : (s : Int) * u16At file 22 = u16At file 32 := by exact_mod_cast hsa
  have hi1 : ((i : Int) + 1) * s ≤ cnt * s := mul_le_mul_of_nonneg_right (by omega) (by positivity)
  have hao : (0 : Int) ≤ (u16At file 32 : Int) * o := by positivity
  have hto : ((44 + (u16At file 32 : Int) * o).toNat : Int) = 44 + (u16At file 32 : Int) * o :=
    Int.toNat_of_nonneg h0
  have hchunk : (u16At file 32 : Int) * o + cnt * s ≤ u32At file 40 := by
    cases k with
    | none =>
      simp only at hk
      rw [hk]
      have : ((u32At file 40 / s : Nat) : Int) * s ≤ u32At file 40 := by
        exact_mod_cast Nat.div_mul_le_self _ _
      nlinarith
    | some k =>
      obtain ⟨hk0, hc, hle⟩ := hk
      have : ((u32At file 40 / u16At file 32 : Nat) : Int) * u16At file 32 ≤ u32At file 40 := by
        exact_mod_cast Nat.div_mul_le_self _ _
      have h2 : (o + k) * (u16At file 32 : Int) ≤ ((u32At file 40 / u16At file 32 : Nat) : Int) * u16At file 32 :=
        mul_le_mul_of_nonneg_right hle (by positivity)
      rw [hc]
      nlinarith
  refine ⟨_, s, ?_, ?_, ?_, hs, e⟩
  · zify; rw [hto]; nlinarith [Int.natCast_nonneg (s * i)]
  · zify; rw [hto]; nlinarith
  · zify; rw [hto]; nlinarith

/-- The hypotheses are met: the clip is read back from frame 1 on. -/
example : ∃ a, wavread (wavwrite wrapCast clipPath clip 16000 false).file (1 : Nat) (some (2 : Nat)) = .ok (a, 16000) := by
  obtain ⟨sig, h⟩ := C02_partial_reads_are_slices wrapCast clipPath clip 16000 false (by decide +kernel)
  have hf : 1 + 2 ≤ sig.frames := by rw [h.1 _ rfl]; decide
  exact ⟨_, (h.2 false false).2.1 1 2 hf⟩

/-! ## C06 -/

/-- C06 for samples in `[-1, 1)`: the error is below one quantisation step `2^-15`. At the end point
`1.0` this is false, see `C06_one_is_wrong`. -/
theorem C06_quantisation (castOut : Int → BitVec 16) (path : List Char) (a : NdArr ℚ) (rate : Int)
    (cfw : Bool) (sig : Signal ℚ) (hsig : a.denotes cfw = some sig)
    (hrange : ∀ t c, -1 ≤ sig.samp t c ∧ sig.samp t c < 1)
    (hok : (wavwrite castOut path (.float a) rate cfw).err = none) (r2 cfr : Bool) :
    ∃ q : ℚ → ℚ,
      wavread (wavwrite castOut path (.float a) rate cfw).file 0 none r2 cfr =
        .ok ((sig.map q).present r2 cfr, rate.toNat) ∧
      ∀ t c, |q (sig.samp t c) - sig.samp t c| < 1 / 2 ^ 15 := by
  obtain ⟨-, sig', s, data, r, h1, ⟨P⟩, rfl, -, hfit, -, -, -, hfile⟩ :=
    wavwrite_success castOut path (.float a) rate cfw hok
  have hsame : sig' = sig.map (fun x => ((floatToI2 castOut x).toInt : ℚ) / 2 ^ 15) := by
    simpa [Waveform.stored, hsig] using h1.symm
  refine ⟨fun x => ((floatToI2 castOut x).toInt : ℚ) / 2 ^ 15, ?_, ?_⟩
  · rw [hfile, image]
    have := read_image_none P r hfit (leBytes 4 (36 + data.length)) (by simp) data.length 0 r2 cfr
    rw [List.take_length] at this
    rw [show (0 : Int) = ((0 : Nat) : Int) from rfl, this, dif_pos ⟨by omega, le_refl _⟩, ← hsame]
    simp [Signal.window]
  · intro t c
    obtain ⟨hlo, hhi⟩ := hrange t c
    set x := sig.samp t c
    have hv : (floatToI2 castOut x).toInt = truncZero (x * 2 ^ 15) ∧
        |(truncZero (x * 2 ^ 15) : ℚ) - x * 2 ^ 15| < 1 := by
      have hb : -(2 ^ 15) ≤ truncZero (x * 2 ^ 15) ∧ truncZero (x * 2 ^ 15) < 2 ^ 15 ∧
          |(truncZero (x * 2 ^ 15) : ℚ) - x * 2 ^ 15| < 1 := by
        unfold truncZero
        split
        · rename_i h
          refine ⟨?_, ?_, ?_⟩
          · have : 0 ≤ ⌊x * 2 ^ 15⌋ := Int.floor_nonneg.2 h
            omega
          · rw [Int.floor_lt]; push_cast; linarith
          · rw [abs_lt]
            have h1 := Int.floor_le (x * 2 ^ 15)
            have h2 := Int.lt_floor_add_one (x * 2 ^ 15)
            constructor <;> linarith
        · rename_i h
          refine ⟨?_, ?_, ?_⟩
          · have : ((-(2 ^ 15) : Int) : ℚ) ≤ (⌈x * 2 ^ 15⌉ : ℚ) := by
              refine le_trans ?_ (Int.le_ceil _)
              push_cast; linarith
            exact_mod_cast this
          · have : ⌈x * 2 ^ 15⌉ ≤ 0 := Int.ceil_le.2 (by push_cast; linarith)
            omega
          · rw [abs_lt]
            have h1 := Int.le_ceil (x * 2 ^ 15)
            have h2 := Int.ceil_lt_add_one (x * 2 ^ 15)
            constructor <;> linarith
      refine ⟨?_, hb.2.2⟩
      unfold floatToI2
      simp only
      rw [if_pos ⟨hb.1, hb.2.1⟩, BitVec.toInt_ofInt]
      have h3 := hb.1
      have h4 := hb.2.1
      apply Int.bmod_eq_of_le <;> simp <;> omega
    simp only
    rw [hv.1]
    have h15 : (0 : ℚ) < 2 ^ 15 := by positivity
    have hd := hv.2
    rw [abs_lt] at hd ⊢
    constructor
    · rw [lt_sub_iff_add_lt, lt_div_iff₀ h15]
      have : (-(1 / 2 ^ 15) + x) * 2 ^ 15 = -1 + x * 2 ^ 15 := by field_simp
      rw [this]; linarith [hd.1]
    · rw [sub_lt_iff_lt_add, div_lt_iff₀ h15]
      have : (1 / 2 ^ 15 + x) * 2 ^ 15 = 1 + x * 2 ^ 15 := by field_simp
      rw [this]; linarith [hd.2]

/-- C06 fails at the end point: whatever the platform's cast does, the sample `1.0` is read back with an error
of at least one step … -/
theorem C06_one_is_wrong (castOut : Int → BitVec 16) :
    ∃ q : ℚ, wavread (wavwrite castOut clipPath (.float (.d1 [1])) 8000 false).file = .ok (.d1 [q], 8000) ∧
      1 / 2 ^ 15 ≤ |q - 1| := by
  have hprep : prepare castOut (.float (.d1 [1])) false =
      .ok (1, 16, encodeSample 2 (floatToI2 castOut 1) ++ []) := rfl
  have hlen : (encodeSample 2 (floatToI2 castOut 1) ++ []).length = 2 := by simp [encodeSample]
  obtain ⟨sig, s, h1, h2, h3, ⟨P⟩⟩ := prepare_spec castOut _ false 1 16 _ hprep
  have hs : s = 2 := by omega
  subst hs
  have hok : (wavwrite castOut clipPath (.float (.d1 [1])) 8000 false).err = none := by
    have hfit : Fits sig 2 8000 (encodeSample 2 (floatToI2 castOut 1) ++ []) := by
      refine ⟨by norm_num, by rw [h2]; norm_num, by rw [hlen]; norm_num⟩
    rcases wavwrite_cases castOut clipPath (.float (.d1 [1])) 8000 false (by decide) 1 16 _ hprep (by norm_num)
      sig 2 h2 h3 P with ⟨b, -, -, hn⟩ | ⟨r, hr, -, -, ⟨-, e⟩ | ⟨hn, -⟩⟩
    · exact absurd ⟨by norm_num, hfit⟩ hn
    · rw [e]
    · rw [hlen] at hn; norm_num at hn
  obtain ⟨-, sig', s', data', r, h1', ⟨P'⟩, hr, -, hfit, -, -, -, hfile⟩ :=
    wavwrite_success castOut _ _ _ _ hok
  have hr8 : r = 8000 := by exact_mod_cast hr.symm
  subst hr8
  have hsame : sig' = ⟨1, 1, fun _ _ => ((floatToI2 castOut 1).toInt : ℚ) / 2 ^ 15⟩ := by
    have : Waveform.stored castOut (.float (.d1 [1])) false =
        some ⟨1, 1, fun t _ => ((floatToI2 castOut (([1] : List ℚ).get t)).toInt : ℚ) / 2 ^ 15⟩ := rfl
    rw [this] at h1'
    injection h1' with h1'
    rw [← h1']
    congr 1
    funext t _
    have : t = 0 := Subsingleton.elim _ _
    subst this; rfl
  have hread := read_image_none P' 8000 hfit (leBytes 4 (36 + data'.length)) (by simp) data'.length 0 false false
  rw [List.take_length] at hread
  rw [dif_pos ⟨by omega, le_refl _⟩] at hread
  refine ⟨((floatToI2 castOut 1).toInt : ℚ) / 2 ^ 15, ?_, ?_⟩
  · rw [hfile, image]
    rw [show (0 : Int) = ((0 : Nat) : Int) from rfl, hread, hsame]
    simp [Signal.window, Signal.present]
  · have hle : (floatToI2 castOut 1).toInt ≤ 2 ^ 15 - 1 := by
      have := BitVec.toInt_lt (x := floatToI2 castOut 1)
      omega
    have hq : ((floatToI2 castOut 1).toInt : ℚ) ≤ 2 ^ 15 - 1 := by exact_mod_cast hle
    rw [abs_of_nonpos]
    · rw [neg_sub, le_sub_iff_add_le, ← le_sub_iff_add_le', div_le_iff₀ (by positivity)]
      norm_num at hq ⊢
      linarith
    · rw [sub_nonpos, div_le_one (by positivity)]
      linarith

/-- … and with the usual two's-complement wrap `1.0` comes back as `-1.0`. -/
theorem C06_one_becomes_minus_one : ((floatToI2 wrapCast 1).toInt : ℚ) / 2 ^ 15 = -1 := by
  have h : truncZero (1 * 2 ^ 15) = 32768 := by
    have : (1 * 2 ^ 15 : ℚ) = ((32768 : Int) : ℚ) := by norm_num
    rw [this, truncZero, if_pos (by norm_num), Int.floor_intCast]
  have h2 : floatToI2 wrapCast 1 = BitVec.ofInt 16 32768 := by
    unfold floatToI2; simp only [h]; rw [if_neg (by norm_num)]; rfl
  rw [h2]
  have : (BitVec.ofInt 16 32768).toInt = -32768 := by decide +kernel
  rw [this]; norm_num

/-- A float clip inside `[-1, 1)` is accepted. -/
example : ∃ sig, (NdArr.d1 [(1 : ℚ) / 3, -1]).denotes false = some sig ∧ ∀ t c, -1 ≤ sig.samp t c ∧ sig.samp t c < 1 :=
  ⟨_, rfl, by
    intro t c
    rcases t with ⟨t, h⟩
    have ht : t = 0 ∨ t = 1 := by
      have h2 : t < 2 := h
      omega
    rcases ht with rfl | rfl <;> norm_num⟩

/-! ## C07 -/

/-- Rank, channel count and dtype accepted by the writer, with the bytes per sample. -/
def Acceptable (wf : Waveform) (cf : Bool) (frames chans bytes : Nat) : Prop :=
  (chans = 1 ∨ chans = 2) ∧
  ((∃ (a : NdArr ℚ) (s : Signal ℚ), wf = .float a ∧ a.denotes cf = some s ∧ s.frames = frames ∧
      s.chans = chans ∧ bytes = 2) ∨
   (∃ (a : NdArr (BitVec 16)) (s : Signal (BitVec 16)), wf = .i2 a ∧ a.denotes cf = some s ∧ s.frames = frames ∧
      s.chans = chans ∧ bytes = 2) ∨
   (∃ (a : NdArr (BitVec 8)) (s : Signal (BitVec 8)), wf = .i1 a ∧ a.denotes cf = some s ∧ s.frames = frames ∧
      s.chans = chans ∧ bytes = 1))

theorem layout_of_denotes {α : Type} (a : NdArr α) (cf : Bool) (sig : Signal α) (h : a.denotes cf = some sig)
    (hc : sig.chans = 1 ∨ sig.chans = 2) : ∃ l, layout a cf = .ok (sig.chans, l) := by
  cases a with
  | other n => cases h
  | d1 l => injection h with h; subst h; exact ⟨l, rfl⟩
  | d2 r c g =>
    injection h with h
    cases cf
    · simp only [Bool.false_eq_true, if_false] at h
      subst h
      simp only [layout, flattenChecked, Bool.false_eq_true, if_false]
      rw [if_neg (by simp only at hc; omega)]
      exact ⟨_, rfl⟩
    · simp only [if_true] at h
      subst h
      simp only [layout, flattenChecked, if_true]
      rw [if_neg (by simp only at hc; omega)]
      exact ⟨_, rfl⟩

theorem prepare_of_acceptable (castOut : Int → BitVec 16) (wf : Waveform) (cf : Bool) (frames chans bytes : Nat)
    (h : Acceptable wf cf frames chans bytes) :
    ∃ data, prepare castOut wf cf = .ok (chans, 8 * bytes, data) ∧ data.length = frames * chans * bytes := by
  obtain ⟨hc, ⟨a, s, rfl, hd, rfl, rfl, rfl⟩ | ⟨a, s, rfl, hd, rfl, rfl, rfl⟩ | ⟨a, s, rfl, hd, rfl, rfl, rfl⟩⟩ := h
  all_goals
    obtain ⟨l, hl⟩ := layout_of_denotes a cf s hd hc
    obtain ⟨-, s', hs', -, hlen, -⟩ := layout_denotes a cf _ l hl
    rw [hd] at hs'
    injection hs' with hs'
    subst hs'
    refine ⟨_, by simp only [prepare, hl, bind, Except.bind, pure, Except.pure]; rfl, ?_⟩
    first
    | exact (length_flatten_const 1 l _ (fun x => length_leBytes 1 _)).trans (by rw [hlen]; ring)
    | exact (length_flatten_const 2 l _ (fun x => length_leBytes 2 _)).trans (by rw [hlen]; ring)

theorem acceptable_of_prepare (castOut : Int → BitVec 16) (wf : Waveform) (cf : Bool) (p : Nat × Nat × Bytes)
    (h : prepare castOut wf cf = .ok p) :
    ∃ frames chans bytes, Acceptable wf cf frames chans bytes := by
  cases wf with
  | otherDtype a => simp only [prepare, bind, Except.bind] at h; split at h <;> cases h
  | float a =>
    simp only [prepare, bind, Except.bind] at h
    split at h
    · cases h
    · rename_i v hv
      obtain ⟨hc, s, hs, hsc, -, -⟩ := layout_denotes a cf v.1 v.2 hv
      exact ⟨s.frames, s.chans, 2, by omega, Or.inl ⟨a, s, rfl, hs, rfl, rfl, rfl⟩⟩
  | i1 a =>
    simp only [prepare, bind, Except.bind] at h
    split at h
    · cases h
    · rename_i v hv
      obtain ⟨hc, s, hs, hsc, -, -⟩ := layout_denotes a cf v.1 v.2 hv
      exact ⟨s.frames, s.chans, 1, by omega, Or.inr (Or.inr ⟨a, s, rfl, hs, rfl, rfl, rfl⟩)⟩
  | i2 a =>
    simp only [prepare, bind, Except.bind] at h
    split at h
    · cases h
    · rename_i v hv
      obtain ⟨hc, s, hs, hsc, -, -⟩ := layout_denotes a cf v.1 v.2 hv
      exact ⟨s.frames, s.chans, 2, by omega, Or.inr (Or.inl ⟨a, s, rfl, hs, rfl, rfl, rfl⟩)⟩

/-- C07 (writer). `wavwrite` succeeds exactly on acceptable arguments whose header fields fit. -/
theorem C07_wavwrite_succeeds_iff (castOut : Int → BitVec 16) (path : List Char) (wf : Waveform) (rate : Int)
    (cf : Bool) :
    (wavwrite castOut path wf rate cf).err = none ↔
      ['.', 'w', 'a', 'v'] <:+ path ∧ 0 < rate ∧
      ∃ frames chans bytes, Acceptable wf cf frames chans bytes ∧
        rate < 2 ^ 32 ∧ rate * chans * bytes < 2 ^ 32 ∧ frames * chans * bytes + 36 < 2 ^ 32 := by
  have hpath : ['.', 'w', 'a', 'v'] <:+ path ↔ path.drop (path.length - 4) = ['.', 'w', 'a', 'v'] := by
    constructor
    · rintro ⟨t, rfl⟩; simp
    · intro h; exact ⟨path.take (path.length - 4), by rw [← h, List.take_append_drop]⟩
  have h256 : (256 : Nat) ^ 4 = 2 ^ 32 := by norm_num
  constructor
  · intro hok
    obtain ⟨hp, sig, s, data, r, h1, ⟨P⟩, rfl, hr, hfit, hsz, hprep, hops, hfile⟩ :=
      wavwrite_success castOut path wf rate cf hok
    obtain ⟨frames, chans, bytes, hacc⟩ := acceptable_of_prepare castOut wf cf _ hprep
    obtain ⟨data', hp', hl'⟩ := prepare_of_acceptable castOut wf cf _ _ _ hacc
    rw [hprep] at hp'
    injection hp' with hp'; injection hp' with e1 hp'; injection hp' with e2 e3
    subst e3
    obtain ⟨hf1, hf2, hf3⟩ := hfit
    refine ⟨hpath.2 hp, by omega, frames, chans, bytes, hacc, ?_, ?_, ?_⟩
    · rw [h256] at hf1; exact_mod_cast hf1
    · have : s = bytes := by omega
      subst this
      rw [← e1]
      rw [h256] at hf2
      have : r * sig.chans * s < 2 ^ 32 := by rw [Nat.mul_comm s r, Nat.mul_right_comm] at hf2; exact hf2
      exact_mod_cast this
    · rw [← hl', ← h256]; omega
  · rintro ⟨hp, hr, frames, chans, bytes, hacc, hf1, hf2, hf3⟩
    obtain ⟨data, hprep, hlen⟩ := prepare_of_acceptable castOut wf cf _ _ _ hacc
    obtain ⟨sig, s, h1, h2, h3, ⟨P⟩⟩ := prepare_spec castOut wf cf _ _ _ hprep
    have hsb : s = bytes := by omega
    subst hsb
    obtain ⟨r, rfl⟩ : ∃ r : Nat, rate = r := ⟨rate.toNat, by omega⟩
    have hfit : Fits sig s r data := by
      refine ⟨by rw [h256]; exact_mod_cast hf1, ?_, by rw [h256, hlen]; omega⟩
      rw [h256, h2, Nat.mul_comm s r, Nat.mul_right_comm]; exact_mod_cast hf2
    rcases wavwrite_cases castOut path wf r cf (hpath.1 hp) _ _ data hprep (by omega) sig s h2 h3 P with
      ⟨b, -, -, hn⟩ | ⟨r', hr', -, -, ⟨-, e⟩ | ⟨hn, -⟩⟩
    · exact absurd ⟨hr, hfit⟩ hn
    · rw [e]
    · exact absurd (by rw [h256, hlen]; omega) hn

/-- C07 (reader). A successful `wavread` has seen a RIFF/WAVE file with a 16-byte PCM `fmt ` chunk with a
consistent byte rate, directly followed by a `data` chunk; the rate returned is the header's. -/
theorem C07_wavread_accepts_only_pcm (file : Bytes) (o : Int) (k : Option Int) (r2 cf : Bool) (a : NdArr ℚ)
    (rate : Nat) (h : wavread file o k r2 cf = .ok (a, rate)) :
    44 ≤ file.length ∧ file.take 4 = [82, 73, 70, 70] ∧ (file.drop 8).take 4 = [87, 65, 86, 69] ∧
    (file.drop 12).take 4 = [102, 109, 116, 32] ∧ (file.drop 36).take 4 = [100, 97, 116, 97] ∧
    u32At file 16 = 16 ∧ u16At file 20 = 1 ∧
    u16At file 34 * u32At file 24 * u16At file 22 = 8 * u32At file 28 ∧ rate = u32At file 24 ∧
    u16At file 22 ≠ 0 := by
  obtain ⟨h1, h2, h3, h4, h5, h6, h7, h8, h9, hd⟩ := wavread_inv file o k r2 cf a rate h
  obtain ⟨_, _, _, hn, _⟩ := readDataChunk_inv file h1 _ _ o k r2 cf a hd
  exact ⟨h1, h2.trans (by decide), h3.trans (by decide), h4.trans (by decide), h5.trans (by decide), h6, h7, h8,
    h9, hn⟩

/-- Accepted and rejected argument combinations both exist. -/
example : Acceptable clip false 3 2 2 := ⟨Or.inr rfl, Or.inr (Or.inl ⟨_, _, rfl, rfl, rfl, rfl, rfl⟩)⟩
example : (wavwrite wrapCast clipPath clip 16000 true).err = some .value := by decide +kernel

end Verif.Io
