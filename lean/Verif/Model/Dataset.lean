import Mathlib.Data.Real.Basic
import Mathlib.Data.List.Basic
import Verif.Model.PyErr

/-!
# The sample data loader, `utils/dataset`

The file system is a function from a root directory and a file name to the contents. The two archives on the web are
parameters (`Web`). Outside the model: failing downloads, files put into the roots by other programs, the WAV decoding
(`Verif.Model.Io`) and the resampling of the impulse responses, which is an arbitrary function. `max_duration` is given
as the number of samples `max_samples`.
-/

namespace Verif.Dataset

/-- What is on the web: `dev1.zip` with the sources (numbered from 1) of every tag and the archives of impulse
responses `Rir` for the supported reverberation times and all degrees. `resample r c` is channel `c` of
`resample_mird_rir`, `mird.py` L70-81. -/
structure Web where
  Rir : Type
  speech : String → ℕ → Option (List ℝ)
  hasMatrix : String → Bool
  rir : ℚ → ℕ → Rir
  resample : Rir → ℕ → List ℝ

/-- The file names used below a root. -/
inductive File
  | speechZip
  | instMatrix (tag : String)
  | source (tag : String) (i : ℕ)
  | speechNpz (n : ℕ)
  | rirZip (reverb : ℚ)
  | rirMat (reverb : ℚ) (degree : ℕ)
  | rirNpz (n : ℕ)
  deriving DecidableEq

/-- File contents; `npz` files hold the sampling rate and `src_1`, `src_2`, .... -/
inductive Content (w : Web)
  | zip
  | mat
  | wav (x : List ℝ)
  | rir (r : w.Rir)
  | speech (sample_rate : ℕ) (src : List (List ℝ))
  | rirs (sample_rate : ℕ) (src : List (List (List ℝ)))

/-- The file system. -/
abbrev Fs (w : Web) := String → File → Option (Content w)

/-- Write one file. -/
def write {w : Web} (fs : Fs w) (root : String) (file : File) (c : Content w) : Fs w := fun r f =>
  if r = root ∧ f = file then some c else fs r f

/-- `shutil.unpack_archive` of `dev1.zip`. -/
def unpackSpeech {w : Web} (fs : Fs w) (root : String) : Fs w := fun r f =>
  if r = root then
    match f with
    | .instMatrix tag => if w.hasMatrix tag then some .mat else fs r f
    | .source tag i => (w.speech tag i).elim (fs r f) fun x => some (.wav x)
    | _ => fs r f
  else fs r f

/-- `shutil.unpack_archive` of an archive of impulse responses. -/
def unpackRir {w : Web} (fs : Fs w) (root : String) (reverb : ℚ) : Fs w := fun r f =>
  if r = root then
    match f with
    | .rirMat rev degree => if rev = reverb then some (.rir (w.rir rev degree)) else fs r f
    | _ => fs r f
  else fs r f

/-- `wavread` of a file. -/
def readWav {w : Web} (fs : Fs w) (root : String) (file : File) : Except PyErr (List ℝ) :=
  match fs root file with
  | some (.wav x) => .ok x
  | _ => .error .os

/-- `loadmat` of a file. -/
def readRir {w : Web} (fs : Fs w) (root : String) (file : File) : Except PyErr w.Rir :=
  match fs root file with
  | some (.rir x) => .ok x
  | _ => .error .os

/-- `sisec2010.download`, L10-54: the result and the file system afterwards. -/
def downloadSpeech {w : Web} (root : String) (n_sources : ℕ) (tag : String) (fs : Fs w) : Except PyErr File × Fs w :=
  let fs := if (fs root .speechZip).isNone then write fs root .speechZip .zip else fs
  let fs := if (fs root (.instMatrix tag)).isNone then unpackSpeech fs root else fs
  let source_paths := (List.range n_sources).map fun src_idx => File.source tag (src_idx + 1)
  let channels := [3, 4, 2, 5].take n_sources
  let n_channels := channels.length
  let npz_path := File.speechNpz n_channels
  if n_channels ≠ n_sources then (.error .assertion, fs)
  else if (fs root npz_path).isNone then
    match source_paths.mapM (readWav fs root) with
    | .error e => (.error e, fs)
    | .ok dry_sources => (.ok npz_path, write fs root npz_path (.speech 16000 dry_sources))
  else (.ok npz_path, fs)

/-- `reverb_durations`, `mird.py` L7. -/
def reverbDurations : List ℚ := [16 / 100, 36 / 100, 61 / 100]

/-- `mird.download`, L10-67. -/
def downloadRir {w : Web} (root : String) (n_sources : ℕ) (reverb : ℚ) (fs : Fs w) : Except PyErr File × Fs w :=
  if reverb ∉ reverbDurations then (.error .assertion, fs)
  else
    let degrees := [30, 345, 0, 60, 315].take n_sources
    let channels := [3, 4, 2, 5, 1, 6, 0, 7].take n_sources
    let n_channels := channels.length
    let n_samples := (16000 * reverb).floor.toNat
    let fs := if (fs root (.rirZip reverb)).isNone then write fs root (.rirZip reverb) .zip else fs
    let fs := if (fs root (.rirMat reverb 0)).isNone then unpackRir fs root reverb else fs
    let npz_path := File.rirNpz n_channels
    if n_channels ≠ n_sources then (.error .assertion, fs)
    else if (fs root npz_path).isNone then
      match degrees.mapM fun degree => readRir fs root (.rirMat reverb degree) with
      | .error e => (.error e, fs)
      | .ok rirs => (.ok npz_path, write fs root npz_path (.rirs 16000
          (rirs.map fun r => channels.map fun c => (w.resample r c).take n_samples)))
    else (.ok npz_path, fs)

/-- The arguments of `download_sample_speech_data`, `__init__.py` L13-21. -/
structure Call where
  sisec2010_root : String
  mird_root : String
  n_sources : ℕ
  sisec2010_tag : String
  max_samples : ℕ
  reverb_duration : ℚ
  conv : Bool

/-- `np.convolve(x, h)[:len(x)]`; an empty argument raises `ValueError`. -/
noncomputable def convolve (x h : List ℝ) : Except PyErr (List ℝ) :=
  if x = [] ∨ h = [] then .error .value
  else .ok ((List.range x.length).map fun i =>
    ((List.range (i + 1)).map fun j => x.getD j 0 * h.getD (i - j) 0).sum)

/-- The image of one source in the convolutive case, L69-77: a list of channels. -/
noncomputable def convImage (max_samples : ℕ) (src : List ℝ) (rirs : List (List ℝ)) : Except PyErr (List (List ℝ)) :=
  rirs.mapM fun waveform_rir => convolve (src.take max_samples) waveform_rir

/-- `download_sample_speech_data`, L47-95. The result is the list of source images (`np.stack(..., axis=1)` only moves
the source axis; it raises `ValueError` for an empty list, and for images of different lengths). `mixing` is the matrix
drawn with seed 42 for the given number of sources. -/
noncomputable def load {w : Web} (mixing : ℕ → ℕ → ℕ → ℝ) (c : Call) (fs : Fs w) :
    Except PyErr (List (List (List ℝ))) × Fs w :=
  if c.sisec2010_tag ∉ ["dev1_female3", "dev1_female4"] then (.error .assertion, fs)
  else
    match downloadSpeech c.sisec2010_root c.n_sources c.sisec2010_tag fs with
    | (.error e, fs) => (.error e, fs)
    | (.ok path, fs) =>
      match fs c.sisec2010_root path with
      | some (.speech sample_rate src) =>
        if sample_rate ≠ 16000 then (.error .assertion, fs)
        else if c.conv then
          match downloadRir c.mird_root c.n_sources c.reverb_duration fs with
          | (.error e, fs) => (.error e, fs)
          | (.ok path, fs) =>
            match fs c.mird_root path with
            | some (.rirs sample_rate rirs) =>
              if sample_rate ≠ 16000 then (.error .assertion, fs)
              else (do
                let images ← (List.range c.n_sources).mapM fun k =>
                  convImage c.max_samples (src.getD k []) (rirs.getD k [])
                stack images, fs)
            | _ => (.error .os, fs)
        else (stack ((List.range c.n_sources).map fun k => (List.range c.n_sources).map fun ch =>
          ((src.getD k []).take c.max_samples).map fun x => mixing c.n_sources ch k * x), fs)
      | _ => (.error .os, fs)
where
  /-- `np.stack(waveform_src_img, axis=1)`. -/
  stack (images : List (List (List ℝ))) : Except PyErr (List (List (List ℝ))) :=
    match images with
    | [] => .error .value
    | x :: _ => if images.all fun y => y.map List.length = x.map List.length then .ok images else .error .value

/-- A history of calls on one file system. -/
noncomputable def runCalls {w : Web} (mixing : ℕ → ℕ → ℕ → ℝ) (cs : List Call) (fs : Fs w) : Fs w :=
  cs.foldl (fun fs c => (load mixing c fs).2) fs

end Verif.Dataset
