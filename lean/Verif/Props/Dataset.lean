import Mathlib.Algebra.BigOperators.NatAntidiagonal
import Mathlib.Data.List.GetD
import Mathlib.Tactic.NormNum
import Verif.Model.Dataset

/-! # What the sample data loader returns depends on earlier calls (C54) -/

namespace Verif.Dataset

variable {w : Web}

/-- The sources `1, …, n` of a tag in the archive. -/
def speechData (w : Web) (tag : String) (n : ℕ) : Except PyErr (List (List ℝ)) :=
  (List.range n).mapM fun i => match w.speech tag (i + 1) with
    | some x => .ok x
    | none => .error .os

/-- The impulse responses of a reverberation time for `n` sources and channels. -/
def rirData (w : Web) (reverb : ℚ) (n : ℕ) : List (List (List ℝ)) :=
  ([30, 345, 0, 60, 315].take n).map fun degree => ([3, 4, 2, 5, 1, 6, 0, 7].take n).map fun ch =>
    (w.resample (w.rir reverb degree) ch).take (16000 * reverb).floor.toNat

/-- The answer to a call if the speech of `tag` and the impulse responses of `reverb` are used. -/
noncomputable def answer (w : Web) (mixing : ℕ → ℕ → ℕ → ℝ) (c : Call) (tag : String) (reverb : ℚ) :
    Except PyErr (List (List (List ℝ))) := do
  let src ← speechData w tag c.n_sources
  if c.conv then do
    let images ← (List.range c.n_sources).mapM fun k =>
      convImage c.max_samples (src.getD k []) ((rirData w reverb c.n_sources).getD k [])
    load.stack images
  else load.stack ((List.range c.n_sources).map fun k => (List.range c.n_sources).map fun ch =>
    ((src.getD k []).take c.max_samples).map fun x => mixing c.n_sources ch k * x)

/-- The unpacked files are those of the archives. -/
structure Good (fs : Fs w) : Prop where
  source : ∀ root tag i, fs root (.source tag i) = none ∨
    fs root (.source tag i) = (w.speech tag i).map .wav
  sources : ∀ root tag, (fs root (.instMatrix tag)).isSome → ∀ i,
    fs root (.source tag i) = (w.speech tag i).map .wav
  rirs : ∀ root reverb, (fs root (.rirMat reverb 0)).isSome → ∀ d,
    fs root (.rirMat reverb d) = some (.rir (w.rir reverb d))

theorem good_write {fs : Fs w} (h : Good fs) (root : String) (file : File) (c : Content w)
    (hf : (∀ tag, file ≠ .instMatrix tag) ∧ (∀ tag i, file ≠ .source tag i) ∧ ∀ r d, file ≠ .rirMat r d) :
    Good (write fs root file c) := by
  have h1 : ∀ r tag, write fs root file c r (.instMatrix tag) = fs r (.instMatrix tag) := fun r tag =>
    if_neg fun hh => hf.1 tag hh.2.symm
  have h2 : ∀ r tag i, write fs root file c r (.source tag i) = fs r (.source tag i) := fun r tag i =>
    if_neg fun hh => hf.2.1 tag i hh.2.symm
  have h3 : ∀ r rev d, write fs root file c r (.rirMat rev d) = fs r (.rirMat rev d) := fun r rev d =>
    if_neg fun hh => hf.2.2 rev d hh.2.symm
  refine ⟨fun r tag i => ?_, fun r tag ht i => ?_, fun r rev hr d => ?_⟩
  · rw [h2]
    exact h.source r tag i
  · rw [h1] at ht
    rw [h2]
    exact h.sources r tag ht i
  · rw [h3] at hr
    rw [h3]
    exact h.rirs r rev hr d

theorem good_unpackSpeech {fs : Fs w} (h : Good fs) (root : String) :
    Good (unpackSpeech fs root) ∧ ∀ tag i, unpackSpeech fs root root (.source tag i) = (w.speech tag i).map .wav := by
  have hs : ∀ tag i, unpackSpeech fs root root (.source tag i) = (w.speech tag i).map .wav := by
    intro tag i
    simp only [unpackSpeech, if_true]
    cases hw : w.speech tag i with
    | some x => rfl
    | none =>
      rcases h.source root tag i with h1 | h1
      · exact h1
      · simpa [hw] using h1
  have ho : ∀ r, r ≠ root → ∀ f, unpackSpeech fs root r f = fs r f := fun r hr f => if_neg hr
  have hr : ∀ r rev d, unpackSpeech fs root r (.rirMat rev d) = fs r (.rirMat rev d) := by
    intro r rev d
    simp only [unpackSpeech, ite_self]
  refine ⟨⟨fun r tag i => ?_, fun r tag ht i => ?_, fun r rev hrr d => ?_⟩, hs⟩
  · by_cases hh : r = root
    · subst hh
      exact .inr (hs tag i)
    · rw [ho r hh]
      exact h.source r tag i
  · by_cases hh : r = root
    · subst hh
      exact hs tag i
    · rw [ho r hh] at ht ⊢
      exact h.sources r tag ht i
  · rw [hr] at hrr ⊢
    exact h.rirs r rev hrr d

theorem good_unpackRir {fs : Fs w} (h : Good fs) (root : String) (reverb : ℚ) :
    Good (unpackRir fs root reverb) ∧
      ∀ d, unpackRir fs root reverb root (.rirMat reverb d) = some (.rir (w.rir reverb d)) := by
  have hs : ∀ d, unpackRir fs root reverb root (.rirMat reverb d) = some (.rir (w.rir reverb d)) := by
    intro d
    simp [unpackRir]
  have ho : ∀ r rev, ¬ (r = root ∧ rev = reverb) → ∀ d, unpackRir fs root reverb r (.rirMat rev d) = fs r (.rirMat rev d) := by
    intro r rev hr d
    by_cases hh : r = root
    · subst hh
      simp only [unpackRir, if_true]
      exact if_neg fun e => hr ⟨rfl, e⟩
    · exact if_neg hh
  have h1 : ∀ r tag, unpackRir fs root reverb r (.instMatrix tag) = fs r (.instMatrix tag) := by
    intro r tag
    simp only [unpackRir, ite_self]
  have h2 : ∀ r tag i, unpackRir fs root reverb r (.source tag i) = fs r (.source tag i) := by
    intro r tag i
    simp only [unpackRir, ite_self]
  refine ⟨⟨fun r tag i => ?_, fun r tag ht i => ?_, fun r rev hrr d => ?_⟩, hs⟩
  · rw [h2]
    exact h.source r tag i
  · rw [h1] at ht
    rw [h2]
    exact h.sources r tag ht i
  · by_cases hh : r = root ∧ rev = reverb
    · rw [hh.1, hh.2]
      exact hs d
    · rw [ho r rev hh] at hrr ⊢
      exact h.rirs r rev hrr d

/-- The cached arrays. -/
def speechCell (fs : Fs w) (root : String) (n : ℕ) : Option (Content w) := fs root (.speechNpz n)

/-- The cached impulse responses. -/
def rirCell (fs : Fs w) (root : String) (n : ℕ) : Option (Content w) := fs root (.rirNpz n)

theorem mapM_eq {α β γ : Type} (g : β → Except PyErr γ) (f : α → β) (h : α → Except PyErr γ)
    (he : ∀ a, g (f a) = h a) (l : List α) : (l.map f).mapM g = l.mapM h := by
  rw [List.mapM_map]
  congr 1
  funext a
  exact he a

theorem write_cell {fs : Fs w} {root : String} {file : File} {c : Content w} {r : String} {f : File} (h : f ≠ file) :
    write fs root file c r f = fs r f := if_neg fun hh => h hh.2

/-- After the archive was downloaded and unpacked as needed. -/
theorem prepSpeech {fs : Fs w} (h : Good fs) (root : String) (tag : String) :
    ∃ fs2 : Fs w, (let fs := if (fs root .speechZip).isNone then write fs root .speechZip .zip else fs
        if (fs root (.instMatrix tag)).isNone then unpackSpeech fs root else fs) = fs2 ∧ Good fs2 ∧
      (∀ i, fs2 root (.source tag i) = (w.speech tag i).map .wav) ∧
      (∀ r n, fs2 r (.speechNpz n) = fs r (.speechNpz n)) ∧ ∀ r n, fs2 r (.rirNpz n) = fs r (.rirNpz n) := by
  obtain ⟨fs1, h1⟩ : ∃ fs1, fs1 = if (fs root .speechZip).isNone then write fs root .speechZip .zip else fs := ⟨_, rfl⟩
  have hg : Good fs1 ∧ (∀ r n, fs1 r (.speechNpz n) = fs r (.speechNpz n)) ∧
      ∀ r n, fs1 r (.rirNpz n) = fs r (.rirNpz n) := by
    rw [h1]
    split_ifs
    · exact ⟨good_write h _ _ _ (by simp), fun r n => write_cell (by simp), fun r n => write_cell (by simp)⟩
    · exact ⟨h, fun _ _ => rfl, fun _ _ => rfl⟩
  refine ⟨_, rfl, ?_⟩
  simp only [← h1]
  obtain ⟨g1, g2, g3⟩ := hg
  split_ifs with hm
  · obtain ⟨u1, u2⟩ := good_unpackSpeech g1 root
    refine ⟨u1, u2 tag, fun r n => ?_, fun r n => ?_⟩
    · rw [← g2]
      simp only [unpackSpeech, ite_self]
    · rw [← g3]
      simp only [unpackSpeech, ite_self]
  · exact ⟨g1, g1.sources root tag (Option.isSome_iff_ne_none.mpr (by simpa using hm)), g2, g3⟩

theorem readWav_eq {fs : Fs w} {root tag : String} (h : ∀ i, fs root (.source tag i) = (w.speech tag i).map .wav)
    (n : ℕ) : ((List.range n).map fun i => File.source tag (i + 1)).mapM (readWav fs root) = speechData w tag n := by
  refine mapM_eq _ _ _ (fun i => ?_) _
  rw [readWav, h]
  cases w.speech tag (i + 1) <;> rfl

theorem downloadSpeech_spec {fs : Fs w} (h : Good fs) (root : String) (n : ℕ) (tag : String) :
    let r := downloadSpeech root n tag fs
    Good r.2 ∧ (∀ root' n', rirCell r.2 root' n' = rirCell fs root' n') ∧
      (∀ root' n', ¬ (root' = root ∧ n' = n) → speechCell r.2 root' n' = speechCell fs root' n') ∧
      (4 < n → r.1 = .error .assertion ∧ speechCell r.2 root n = speechCell fs root n) ∧
      (n ≤ 4 → (∀ x, speechCell fs root n = some x → r.1 = .ok (.speechNpz n) ∧ speechCell r.2 root n = some x) ∧
        (speechCell fs root n = none →
          (∀ d, speechData w tag n = .ok d → r.1 = .ok (.speechNpz n) ∧ speechCell r.2 root n = some (.speech 16000 d)) ∧
          ∀ e, speechData w tag n = .error e → r.1 = .error e ∧ speechCell r.2 root n = none)) := by
  obtain ⟨fs2, hfs2, g, hs, c1, c2⟩ := prepSpeech h root tag
  have hlen : ([3, 4, 2, 5].take n : List ℕ).length = min n 4 := by simp
  have e : downloadSpeech root n tag fs = if min n 4 ≠ n then (.error .assertion, fs2)
      else if (fs2 root (.speechNpz (min n 4))).isNone then
        match speechData w tag n with
        | .error e => (.error e, fs2)
        | .ok d => (.ok (.speechNpz (min n 4)), write fs2 root (.speechNpz (min n 4)) (.speech 16000 d))
      else (.ok (.speechNpz (min n 4)), fs2) := by
    simp only [downloadSpeech, hlen, hfs2, readWav_eq hs]
    try rfl
  have hcell : ∀ r n, speechCell fs2 r n = speechCell fs r n := c1
  have hrcell : ∀ r n, rirCell fs2 r n = rirCell fs r n := c2
  intro r
  have hr : r = _ := e
  clear_value r
  by_cases hn : 4 < n
  · rw [if_pos (by omega)] at hr
    subst hr
    exact ⟨g, hrcell, fun _ _ _ => hcell _ _, fun _ => ⟨rfl, hcell _ _⟩, fun h' => absurd hn (by omega)⟩
  · have hmin : min n 4 = n := by omega
    rw [hmin, if_neg (by simp)] at hr
    cases hx : speechCell fs root n with
    | some x =>
      have : fs2 root (.speechNpz n) = some x := (c1 root n).trans hx
      rw [this] at hr
      subst hr
      refine ⟨g, hrcell, fun _ _ _ => hcell _ _, fun h' => absurd h' hn, fun _ => ⟨fun y hy => ⟨rfl, ?_⟩, by simp⟩⟩
      rw [← hy]
      exact this
    | none =>
      have : fs2 root (.speechNpz n) = none := (c1 root n).trans hx
      rw [this] at hr
      cases hd : speechData w tag n with
      | error e =>
        rw [hd] at hr
        subst hr
        exact ⟨g, hrcell, fun _ _ _ => hcell _ _, fun h' => absurd h' hn,
          fun _ => ⟨by simp, fun _ => ⟨by simp, fun e' he' => ⟨by cases he'; rfl, this⟩⟩⟩⟩
      | ok d =>
        rw [hd] at hr
        subst hr
        refine ⟨good_write g _ _ _ (by simp), fun r n' => ?_, fun r n' hne => ?_, fun h' => absurd h' hn,
          fun _ => ⟨by simp, fun _ => ⟨fun d' hd' => ⟨rfl, ?_⟩, by simp⟩⟩⟩
        · rw [← hrcell]
          exact write_cell (by simp)
        · rw [← hcell]
          refine if_neg fun hh => hne ⟨hh.1, ?_⟩
          cases hh.2
          rfl
        · cases hd'
          exact if_pos ⟨rfl, rfl⟩

theorem prepRir {fs : Fs w} (h : Good fs) (root : String) (reverb : ℚ) :
    ∃ fs2 : Fs w, (let fs := if (fs root (.rirZip reverb)).isNone then write fs root (.rirZip reverb) .zip else fs
        if (fs root (.rirMat reverb 0)).isNone then unpackRir fs root reverb else fs) = fs2 ∧ Good fs2 ∧
      (∀ d, fs2 root (.rirMat reverb d) = some (.rir (w.rir reverb d))) ∧
      (∀ r n, fs2 r (.speechNpz n) = fs r (.speechNpz n)) ∧ ∀ r n, fs2 r (.rirNpz n) = fs r (.rirNpz n) := by
  obtain ⟨fs1, h1⟩ : ∃ fs1, fs1 = if (fs root (.rirZip reverb)).isNone then write fs root (.rirZip reverb) .zip
    else fs := ⟨_, rfl⟩
  have hg : Good fs1 ∧ (∀ r n, fs1 r (.speechNpz n) = fs r (.speechNpz n)) ∧
      ∀ r n, fs1 r (.rirNpz n) = fs r (.rirNpz n) := by
    rw [h1]
    split_ifs
    · exact ⟨good_write h _ _ _ (by simp), fun r n => write_cell (by simp), fun r n => write_cell (by simp)⟩
    · exact ⟨h, fun _ _ => rfl, fun _ _ => rfl⟩
  refine ⟨_, rfl, ?_⟩
  simp only [← h1]
  obtain ⟨g1, g2, g3⟩ := hg
  split_ifs with hm
  · obtain ⟨u1, u2⟩ := good_unpackRir g1 root reverb
    refine ⟨u1, u2, fun r n => ?_, fun r n => ?_⟩
    · rw [← g2]
      simp only [unpackRir, ite_self]
    · rw [← g3]
      simp only [unpackRir, ite_self]
  · exact ⟨g1, g1.rirs root reverb (Option.isSome_iff_ne_none.mpr (by simpa using hm)), g2, g3⟩

theorem mapM_ok {α β : Type} {g : α → Except PyErr β} {f : α → β} (h : ∀ a, g a = .ok (f a)) (l : List α) :
    l.mapM g = .ok (l.map f) := by
  induction l with
  | nil => rfl
  | cons a l ih => rw [List.mapM_cons, h, ih]; rfl

theorem downloadRir_spec {fs : Fs w} (h : Good fs) (root : String) {n : ℕ} (hn : n ≤ 8) (reverb : ℚ) :
    let r := downloadRir root n reverb fs
    Good r.2 ∧ (∀ root' n', speechCell r.2 root' n' = speechCell fs root' n') ∧
      (∀ root' n', ¬ (root' = root ∧ n' = n) → rirCell r.2 root' n' = rirCell fs root' n') ∧
      (reverb ∉ reverbDurations → r = (.error .assertion, fs)) ∧
      (reverb ∈ reverbDurations → r.1 = .ok (.rirNpz n) ∧
        (∀ x, rirCell fs root n = some x → rirCell r.2 root n = some x) ∧
        (rirCell fs root n = none → rirCell r.2 root n = some (.rirs 16000 (rirData w reverb n)))) := by
  intro r
  by_cases hrev : reverb ∈ reverbDurations
  swap
  · have hr : r = (.error .assertion, fs) := by
      show downloadRir root n reverb fs = _
      rw [downloadRir, if_pos hrev]
    clear_value r
    subst hr
    exact ⟨h, fun _ _ => rfl, fun _ _ _ => rfl, fun _ => rfl, fun h' => absurd h' hrev⟩
  obtain ⟨fs2, hfs2, g, hs, c1, c2⟩ := prepRir h root reverb
  have hlen : ([3, 4, 2, 5, 1, 6, 0, 7].take n : List ℕ).length = n := by simp; omega
  have hread : ∀ l : List ℕ, (l.mapM fun degree => readRir fs2 root (.rirMat reverb degree)) = .ok (l.map fun d => w.rir reverb d) := by
    intro l
    refine mapM_ok (fun d => ?_) l
    rw [readRir, hs]
  have hr : r = if (fs2 root (.rirNpz n)).isNone then
        (.ok (.rirNpz n), write fs2 root (.rirNpz n) (.rirs 16000 (rirData w reverb n)))
      else (.ok (.rirNpz n), fs2) := by
    show downloadRir root n reverb fs = _
    simp only [downloadRir, if_neg (not_not.mpr hrev), hlen, ne_eq, not_true_eq_false, if_false]
    simp only [hfs2]
    split_ifs with hc
    · simp only [hread]
      simp only [rirData, List.map_map]
      rfl
    · rfl
  clear_value r
  have hcell : ∀ r n, speechCell fs2 r n = speechCell fs r n := c1
  have hrcell : ∀ r n, rirCell fs2 r n = rirCell fs r n := c2
  cases hx : rirCell fs root n with
  | some x =>
    have : fs2 root (.rirNpz n) = some x := (c2 root n).trans hx
    rw [this] at hr
    subst hr
    refine ⟨g, hcell, fun _ _ _ => hrcell _ _, fun h' => absurd hrev h', fun _ => ⟨rfl, fun y hy => ?_, by simp⟩⟩
    rw [← hy]
    exact this
  | none =>
    have : fs2 root (.rirNpz n) = none := (c2 root n).trans hx
    rw [this] at hr
    subst hr
    refine ⟨good_write g _ _ _ (by simp), fun r n' => ?_, fun r n' hne => ?_, fun h' => absurd hrev h',
      fun _ => ⟨rfl, by simp, fun _ => if_pos ⟨rfl, rfl⟩⟩⟩
    · rw [← hcell]
      exact write_cell (by simp)
    · rw [← hrcell]
      refine if_neg fun hh => hne ⟨hh.1, ?_⟩
      cases hh.2
      rfl

/-- The speech data a call works with. -/
def SpeechFrom (w : Web) (fs : Fs w) (root : String) (n : ℕ) (tag : String) : Prop :=
  ∃ d, speechData w tag n = .ok d ∧ speechCell fs root n = some (.speech 16000 d)

/-- The impulse responses a call works with. -/
def RirFrom (w : Web) (fs : Fs w) (root : String) (n : ℕ) (reverb : ℚ) : Prop :=
  rirCell fs root n = some (.rirs 16000 (rirData w reverb n))

/-- Every file in the caches was written by one of the calls `h`. -/
structure Cached (h : List Call) (fs : Fs w) : Prop where
  good : Good fs
  speech : ∀ root n, (speechCell fs root n).isSome → n ≤ 4 ∧ ∃ c ∈ h, c.sisec2010_root = root ∧ c.n_sources = n ∧
    SpeechFrom w fs root n c.sisec2010_tag
  rir : ∀ root n, (rirCell fs root n).isSome → n ≤ 4 ∧ ∃ c ∈ h, c.mird_root = root ∧ c.n_sources = n ∧ c.conv = true ∧
    RirFrom w fs root n c.reverb_duration

theorem Cached.mono {h : List Call} {fs : Fs w} (hf : Cached h fs) (c : Call) : Cached (h ++ [c]) fs :=
  ⟨hf.good, fun root n hs => by
    obtain ⟨h0, c', h1, h2⟩ := hf.speech root n hs
    exact ⟨h0, c', by simp [h1], h2⟩, fun root n hs => by
    obtain ⟨h0, c', h1, h2⟩ := hf.rir root n hs
    exact ⟨h0, c', by simp [h1], h2⟩⟩

theorem speech_step {h : List Call} {fs : Fs w} (hf : Cached h fs) (c : Call) :
    let r := downloadSpeech c.sisec2010_root c.n_sources c.sisec2010_tag fs
    (∀ root n x, speechCell fs root n = some x → speechCell r.2 root n = some x) ∧
    (∀ root n, rirCell r.2 root n = rirCell fs root n) ∧ Cached (h ++ [c]) r.2 ∧
    (4 < c.n_sources → r.1 = .error .assertion) ∧
    (c.n_sources ≤ 4 → ∀ tag, (SpeechFrom w fs c.sisec2010_root c.n_sources tag ∨
          speechCell fs c.sisec2010_root c.n_sources = none ∧ tag = c.sisec2010_tag) →
      (∃ d, speechData w tag c.n_sources = .ok d ∧ r.1 = .ok (.speechNpz c.n_sources) ∧
        r.2 c.sisec2010_root (.speechNpz c.n_sources) = some (.speech 16000 d)) ∨
      ∃ e, speechData w tag c.n_sources = .error e ∧ r.1 = .error e) := by
  obtain ⟨g, hr, ho, hbig, hsmall⟩ := downloadSpeech_spec hf.good c.sisec2010_root c.n_sources c.sisec2010_tag
  intro r
  have hkeep : ∀ root n x, speechCell fs root n = some x → speechCell r.2 root n = some x := by
    intro root n x hx
    by_cases he : root = c.sisec2010_root ∧ n = c.n_sources
    · obtain ⟨rfl, rfl⟩ := he
      by_cases hn : c.n_sources ≤ 4
      · exact ((hsmall hn).1 x hx).2
      · exact (hbig (by omega)).2.trans hx
    · exact (ho root n he).trans hx
  refine ⟨hkeep, hr, ⟨g, fun root n hs => ?_, fun root n hs => ?_⟩, fun hn => (hbig hn).1, fun hn tag ht => ?_⟩
  · by_cases hc : (speechCell fs root n).isSome
    · obtain ⟨h0, c', h1, h2, h3, d, h4, h5⟩ := hf.speech root n hc
      exact ⟨h0, c', by simp [h1], h2, h3, d, h4, hkeep _ _ _ h5⟩
    · have hc' : speechCell fs root n = none := by simpa using hc
      by_cases he : root = c.sisec2010_root ∧ n = c.n_sources
      · obtain ⟨rfl, rfl⟩ := he
        by_cases hn : c.n_sources ≤ 4
        · cases hd : speechData w c.sisec2010_tag c.n_sources with
          | ok d => exact ⟨hn, c, by simp, rfl, rfl, d, hd, (((hsmall hn).2 hc').1 d hd).2⟩
          | error e =>
            have := (((hsmall hn).2 hc').2 e hd).2
            have hs' : speechCell r.2 c.sisec2010_root c.n_sources = none := this
            rw [hs'] at hs
            simp at hs
        · have hs' : speechCell r.2 c.sisec2010_root c.n_sources = none := (hbig (by omega)).2.trans hc'
          rw [hs'] at hs
          simp at hs
      · have hs' : speechCell r.2 root n = none := (ho root n he).trans hc'
        rw [hs'] at hs
        simp at hs
  · have e : rirCell r.2 root n = rirCell fs root n := hr root n
    rw [e] at hs
    obtain ⟨h0, c', h1, h2, h3, h4, h5⟩ := hf.rir root n hs
    exact ⟨h0, c', by simp [h1], h2, h3, h4, e.trans h5⟩
  · rcases ht with ⟨d, h1, h2⟩ | ⟨h1, rfl⟩
    · exact .inl ⟨d, h1, (hsmall hn).1 _ h2⟩
    · cases hd : speechData w c.sisec2010_tag c.n_sources with
      | ok d => exact .inl ⟨d, rfl, ((hsmall hn).2 h1).1 d hd⟩
      | error e => exact .inr ⟨e, rfl, (((hsmall hn).2 h1).2 e hd).1⟩

theorem rir_step {h : List Call} {fs : Fs w} {c : Call} (hf : Cached (h ++ [c]) fs) (hn : c.n_sources ≤ 4)
    (hc : c.conv = true) :
    let r := downloadRir c.mird_root c.n_sources c.reverb_duration fs
    (∀ root n x, rirCell fs root n = some x → rirCell r.2 root n = some x) ∧
    (∀ root n, speechCell r.2 root n = speechCell fs root n) ∧ Cached (h ++ [c]) r.2 ∧
    (c.reverb_duration ∉ reverbDurations → r.1 = .error .assertion) ∧
    (c.reverb_duration ∈ reverbDurations → r.1 = .ok (.rirNpz c.n_sources) ∧
      ∀ rev, (RirFrom w fs c.mird_root c.n_sources rev ∨
          rirCell fs c.mird_root c.n_sources = none ∧ rev = c.reverb_duration) →
        r.2 c.mird_root (.rirNpz c.n_sources) = some (.rirs 16000 (rirData w rev c.n_sources))) := by
  obtain ⟨g, hs, ho, hbad, hgood⟩ := downloadRir_spec hf.good c.mird_root (show c.n_sources ≤ 8 by omega) c.reverb_duration
  intro r
  have hkeep : ∀ root n x, rirCell fs root n = some x → rirCell r.2 root n = some x := by
    intro root n x hx
    by_cases he : root = c.mird_root ∧ n = c.n_sources
    · obtain ⟨rfl, rfl⟩ := he
      by_cases hr : c.reverb_duration ∈ reverbDurations
      · exact (hgood hr).2.1 x hx
      · have : r = (.error .assertion, fs) := hbad hr
        rw [this]
        exact hx
    · exact (ho root n he).trans hx
  refine ⟨hkeep, hs, ⟨g, fun root n hh => ?_, fun root n hh => ?_⟩, fun hr => by
    have : r = (.error .assertion, fs) := hbad hr
    rw [this], fun hr => ⟨(hgood hr).1, fun rev hrev => ?_⟩⟩
  · have e : speechCell r.2 root n = speechCell fs root n := hs root n
    rw [e] at hh
    obtain ⟨h0, c', h1, h2, h3, d, h4, h5⟩ := hf.speech root n hh
    exact ⟨h0, c', h1, h2, h3, d, h4, e.trans h5⟩
  · by_cases hcell : (rirCell fs root n).isSome
    · obtain ⟨h0, c', h1, h2, h3, h4, h5⟩ := hf.rir root n hcell
      exact ⟨h0, c', h1, h2, h3, h4, hkeep _ _ _ h5⟩
    · have hc' : rirCell fs root n = none := by simpa using hcell
      by_cases he : root = c.mird_root ∧ n = c.n_sources
      · obtain ⟨rfl, rfl⟩ := he
        by_cases hr : c.reverb_duration ∈ reverbDurations
        · exact ⟨hn, c, by simp, rfl, rfl, hc, (hgood hr).2.2 hc'⟩
        · have : r = (.error .assertion, fs) := hbad hr
          rw [this] at hh
          exact absurd hh hcell
      · have hs' : rirCell r.2 root n = none := (ho root n he).trans hc'
        rw [hs'] at hh
        simp at hh
  · rcases hrev with h1 | ⟨h1, rfl⟩
    · exact (hgood hr).2.1 _ h1
    · exact (hgood hr).2.2 h1

/-- One call: what is in the caches stays, new entries hold the requested data, and the answer is computed from the
caches. -/
theorem load_spec (mixing : ℕ → ℕ → ℕ → ℝ) {h : List Call} {fs : Fs w} (hf : Cached h fs) (c : Call) :
    let r := load mixing c fs
    (∀ root n x, speechCell fs root n = some x → speechCell r.2 root n = some x) ∧
    (∀ root n x, rirCell fs root n = some x → rirCell r.2 root n = some x) ∧ Cached (h ++ [c]) r.2 ∧
    (c.sisec2010_tag ∈ ["dev1_female3", "dev1_female4"] → c.reverb_duration ∈ reverbDurations → c.n_sources ≤ 4 →
      ∀ tag, (SpeechFrom w fs c.sisec2010_root c.n_sources tag ∨
          speechCell fs c.sisec2010_root c.n_sources = none ∧ tag = c.sisec2010_tag) →
      ∀ rev, (RirFrom w fs c.mird_root c.n_sources rev ∨
          rirCell fs c.mird_root c.n_sources = none ∧ rev = c.reverb_duration) →
      r.1 = answer w mixing c tag rev) ∧
    ((∃ out, r.1 = .ok out) → (speechCell r.2 c.sisec2010_root c.n_sources).isSome ∧
      (c.conv = true → (rirCell r.2 c.mird_root c.n_sources).isSome)) := by
  intro r
  by_cases htag : c.sisec2010_tag ∈ ["dev1_female3", "dev1_female4"]
  swap
  · have hr : r = (.error .assertion, fs) := if_pos htag
    clear_value r
    subst hr
    exact ⟨fun _ _ _ h => h, fun _ _ _ h => h, hf.mono c, fun h => absurd h htag, fun ⟨_, h⟩ => by cases h⟩
  obtain ⟨k1, k2, k3, k4, k5⟩ := speech_step hf c
  have hr : r = _ := if_neg (not_not.mpr htag)
  clear_value r
  cases hd : downloadSpeech c.sisec2010_root c.n_sources c.sisec2010_tag fs with
  | mk res fs1 =>
  rw [hd] at hr k1 k2 k3 k4 k5
  by_cases hn : 4 < c.n_sources
  · cases k4 hn
    subst hr
    exact ⟨k1, fun root n x hx => (k2 root n).trans hx, k3, fun _ _ h => absurd hn (by omega), fun ⟨_, h⟩ => by cases h⟩
  have hn : c.n_sources ≤ 4 := by omega
  have hex : ∃ tag, (SpeechFrom w fs c.sisec2010_root c.n_sources tag ∨
      speechCell fs c.sisec2010_root c.n_sources = none ∧ tag = c.sisec2010_tag) := by
    cases hc : speechCell fs c.sisec2010_root c.n_sources with
    | none => exact ⟨_, .inr ⟨rfl, rfl⟩⟩
    | some x =>
      obtain ⟨-, c', -, -, -, h5⟩ := hf.speech c.sisec2010_root c.n_sources (by rw [hc]; rfl)
      exact ⟨_, .inl h5⟩
  cases res with
  | error e =>
    subst hr
    refine ⟨k1, fun root n x hx => (k2 root n).trans hx, k3, fun _ _ _ tag ht rev _ => ?_, fun ⟨_, h⟩ => by cases h⟩
    rcases k5 hn tag ht with ⟨d, h1, h2, h3⟩ | ⟨e', h1, h2⟩
    · cases h2
    · cases h2
      simp [answer, h1, bind, Except.bind]
  | ok path =>
    obtain ⟨tag0, htag0⟩ := hex
    rcases k5 hn tag0 htag0 with ⟨d, h1, h2, h3⟩ | ⟨e', h1, h2⟩
    swap
    · cases h2
    cases h2
    have hsame : ∀ tag, (SpeechFrom w fs c.sisec2010_root c.n_sources tag ∨
        speechCell fs c.sisec2010_root c.n_sources = none ∧ tag = c.sisec2010_tag) →
        speechData w tag c.n_sources = .ok d := by
      intro tag ht
      rcases k5 hn tag ht with ⟨d', g1, g2, g3⟩ | ⟨e', g1, g2⟩
      · rw [h3] at g3
        cases g3
        exact g1
      · cases g2
    have h3 : fs1 c.sisec2010_root (.speechNpz c.n_sources) = some (.speech 16000 d) := h3
    simp only [h3, ne_eq, not_true_eq_false, if_false] at hr
    by_cases hconv : c.conv
    swap
    · simp only [hconv] at hr
      subst hr
      refine ⟨k1, fun root n x hx => (k2 root n).trans hx, k3, fun _ _ _ tag ht rev _ => ?_,
        fun _ => ⟨by simp [speechCell, h3], fun h => absurd h hconv⟩⟩
      simp [answer, hsame tag ht, bind, Except.bind, hconv]
    · simp only [hconv, if_true] at hr
      obtain ⟨m1, m2, m3, m4, m5⟩ := rir_step k3 hn hconv
      cases hd2 : downloadRir c.mird_root c.n_sources c.reverb_duration fs1 with
      | mk res fs2 =>
      rw [hd2] at hr m1 m2 m3 m4 m5
      have hk : ∀ root n x, speechCell fs root n = some x → speechCell fs2 root n = some x :=
        fun root n x hx => (m2 root n).trans (k1 root n x hx)
      have hk2 : ∀ root n x, rirCell fs root n = some x → rirCell fs2 root n = some x :=
        fun root n x hx => m1 root n x ((k2 root n).trans hx)
      by_cases hrev : c.reverb_duration ∈ reverbDurations
      swap
      · cases m4 hrev
        subst hr
        exact ⟨hk, hk2, m3, fun _ h => absurd h hrev, fun ⟨_, h⟩ => by cases h⟩
      obtain ⟨m6, m7⟩ := m5 hrev
      cases m6
      have hfrom : ∀ rev, (RirFrom w fs c.mird_root c.n_sources rev ∨
          rirCell fs c.mird_root c.n_sources = none ∧ rev = c.reverb_duration) →
          fs2 c.mird_root (.rirNpz c.n_sources) = some (.rirs 16000 (rirData w rev c.n_sources)) := by
        intro rev h
        refine m7 rev ?_
        rcases h with h | ⟨h, h'⟩
        · exact .inl ((k2 _ _).trans h)
        · exact .inr ⟨(k2 _ _).trans h, h'⟩
      have hex : ∃ rev, (RirFrom w fs c.mird_root c.n_sources rev ∨
          rirCell fs c.mird_root c.n_sources = none ∧ rev = c.reverb_duration) := by
        cases hc : rirCell fs c.mird_root c.n_sources with
        | none => exact ⟨_, .inr ⟨rfl, rfl⟩⟩
        | some x =>
          obtain ⟨-, c', -, -, -, -, h5⟩ := hf.rir c.mird_root c.n_sources (by rw [hc]; rfl)
          exact ⟨_, .inl h5⟩
      obtain ⟨rev0, hrev0⟩ := hex
      have hcell := hfrom rev0 hrev0
      simp only [hcell, not_true_eq_false, if_false] at hr
      subst hr
      refine ⟨hk, hk2, m3, fun _ _ _ tag ht rev hrv => ?_,
        fun _ => ⟨?_, fun _ => by simp [rirCell, hcell]⟩⟩
      swap
      · have e2 : speechCell fs2 c.sisec2010_root c.n_sources = speechCell fs1 c.sisec2010_root c.n_sources := m2 _ _
        show (speechCell fs2 c.sisec2010_root c.n_sources).isSome
        rw [e2, speechCell, h3]
        rfl
      have e := hfrom rev hrv
      rw [hcell] at e
      have e' : rirData w rev0 c.n_sources = rirData w rev c.n_sources := by
        injection e with e
        injection e
      simp [answer, hsame tag ht, bind, Except.bind, hconv, e']

/-- An empty disk. -/
def emptyFs (w : Web) : Fs w := fun _ _ => none

theorem cached_empty : Cached [] (emptyFs w) :=
  ⟨⟨fun _ _ _ => .inl rfl, fun _ _ h => (by cases h), fun _ _ h => (by cases h)⟩, fun _ _ h => (by cases h),
    fun _ _ h => (by cases h)⟩

theorem cached_run (mixing : ℕ → ℕ → ℕ → ℝ) (cs : List Call) : ∀ (h : List Call) (fs : Fs w), Cached h fs →
    Cached (h ++ cs) (runCalls mixing cs fs) ∧
    (∀ root n x, speechCell fs root n = some x → speechCell (runCalls mixing cs fs) root n = some x) ∧
    ∀ root n x, rirCell fs root n = some x → rirCell (runCalls mixing cs fs) root n = some x := by
  induction cs with
  | nil => exact fun h fs hf => ⟨by rw [List.append_nil]; exact hf, fun _ _ _ h => h, fun _ _ _ h => h⟩
  | cons c cs ih =>
    intro h fs hf
    obtain ⟨h1, h2, h3, -⟩ := load_spec mixing hf c
    obtain ⟨g1, g2, g3⟩ := ih _ _ h3
    exact ⟨by rw [List.append_cons]; exact g1, fun root n x hx => g2 root n x (h1 root n x hx),
      fun root n x hx => g3 root n x (h2 root n x hx)⟩

/-- The arguments the loader documents: a known tag, a known reverberation time and at most four sources. -/
def Call.Valid (c : Call) : Prop :=
  c.sisec2010_tag ∈ ["dev1_female3", "dev1_female4"] ∧
    (c.reverb_duration = 16 / 100 ∨ c.reverb_duration = 36 / 100 ∨ c.reverb_duration = 61 / 100) ∧ c.n_sources ≤ 4

theorem Call.Valid.duration {c : Call} (h : c.Valid) : c.reverb_duration ∈ reverbDurations := by
  simpa [reverbDurations] using h.2.1

/-- The loader returns what was asked for if the earlier calls with the same roots and the same number of sources asked
for the same tag and the same reverberation time. -/
theorem C54_requested (mixing : ℕ → ℕ → ℕ → ℝ) (h : List Call) (c : Call) (hc : c.Valid)
    (hs : ∀ c' ∈ h, c'.sisec2010_root = c.sisec2010_root → c'.n_sources = c.n_sources →
      c'.sisec2010_tag = c.sisec2010_tag)
    (hr : ∀ c' ∈ h, c'.mird_root = c.mird_root → c'.n_sources = c.n_sources → c'.conv = true →
      c'.reverb_duration = c.reverb_duration) :
    (load mixing c (runCalls mixing h (emptyFs w))).1 = answer w mixing c c.sisec2010_tag c.reverb_duration := by
  have hf := (cached_run mixing h [] (emptyFs w) cached_empty).1
  rw [List.nil_append] at hf
  refine (load_spec mixing hf c).2.2.2.1 hc.1 hc.duration hc.2.2 _ ?_ _ ?_
  · cases hx : speechCell (runCalls mixing h (emptyFs w)) c.sisec2010_root c.n_sources with
    | none => exact .inr ⟨rfl, rfl⟩
    | some x =>
      obtain ⟨-, c', h1, h2, h3, h4⟩ := hf.speech c.sisec2010_root c.n_sources (by rw [hx]; rfl)
      rw [hs c' h1 h2 h3] at h4
      exact .inl h4
  · cases hx : rirCell (runCalls mixing h (emptyFs w)) c.mird_root c.n_sources with
    | none => exact .inr ⟨rfl, rfl⟩
    | some x =>
      obtain ⟨-, c', h1, h2, h3, h4, h5⟩ := hf.rir c.mird_root c.n_sources (by rw [hx]; rfl)
      rw [hr c' h1 h2 h3 h4] at h5
      exact .inl h5

/-- Otherwise the first successful call wins: every later call with the same roots and number of sources returns, without
any error, the recordings of the FIRST tag and the impulse responses of the FIRST reverberation time, whatever it asked
for and whatever was called in between. -/
theorem C54_first_wins (mixing : ℕ → ℕ → ℕ → ℝ) (h₁ h₂ : List Call) (c₁ c₂ : Call) (hc : c₂.Valid)
    (hfirst : ∀ c' ∈ h₁, c'.n_sources ≠ c₁.n_sources ∨
      c'.sisec2010_root ≠ c₁.sisec2010_root ∧ c'.mird_root ≠ c₁.mird_root)
    (hok : ∃ out, (load mixing c₁ (runCalls mixing h₁ (emptyFs w))).1 = .ok out)
    (hroot : c₂.sisec2010_root = c₁.sisec2010_root) (hroot' : c₂.mird_root = c₁.mird_root)
    (hn : c₂.n_sources = c₁.n_sources) (hconv : c₂.conv = true → c₁.conv = true) :
    (load mixing c₂ (runCalls mixing (h₁ ++ c₁ :: h₂) (emptyFs w))).1 =
      answer w mixing c₂ c₁.sisec2010_tag c₁.reverb_duration := by
  have hf := (cached_run mixing h₁ [] (emptyFs w) cached_empty).1
  rw [List.nil_append] at hf
  obtain ⟨-, -, h3, -, h5⟩ := load_spec mixing hf c₁
  obtain ⟨g1, g2⟩ := h5 hok
  have hrun : runCalls mixing (h₁ ++ c₁ :: h₂) (emptyFs w) =
      runCalls mixing h₂ (load mixing c₁ (runCalls mixing h₁ (emptyFs w))).2 := by
    simp [runCalls]
  rw [hrun]
  generalize (load mixing c₁ (runCalls mixing h₁ (emptyFs w))).2 = fs at h3 g1 g2
  obtain ⟨k1, k2, k3⟩ := cached_run mixing h₂ _ _ h3
  have hS : SpeechFrom w (runCalls mixing h₂ fs) c₂.sisec2010_root c₂.n_sources c₁.sisec2010_tag := by
    obtain ⟨-, c', m1, m2, m3, d, m4, m5⟩ := h3.speech _ _ g1
    rw [hroot, hn]
    have : c' = c₁ := by
      rcases List.mem_append.1 m1 with m1 | m1
      · rcases hfirst c' m1 with e | e
        · exact absurd m3 e
        · exact absurd m2 e.1
      · simpa using m1
    subst this
    exact ⟨d, m4, k2 _ _ _ m5⟩
  by_cases hcv : c₂.conv = true
  · refine (load_spec mixing k1 c₂).2.2.2.1 hc.1 hc.duration hc.2.2 _ (.inl hS) _ (.inl ?_)
    obtain ⟨-, c', m1, m2, m3, m4, m5⟩ := h3.rir _ _ (g2 (hconv hcv))
    rw [hroot', hn]
    have : c' = c₁ := by
      rcases List.mem_append.1 m1 with m1 | m1
      · rcases hfirst c' m1 with e | e
        · exact absurd m3 e
        · exact absurd m2 e.2
      · simpa using m1
    subst this
    exact k3 _ _ _ m5
  · have hans : ∀ rev, answer w mixing c₂ c₁.sisec2010_tag rev =
        answer w mixing c₂ c₁.sisec2010_tag c₁.reverb_duration := by
      intro rev
      simp [answer, hcv]
    have hex : ∃ rev, (RirFrom w (runCalls mixing h₂ fs) c₂.mird_root c₂.n_sources rev ∨
        rirCell (runCalls mixing h₂ fs) c₂.mird_root c₂.n_sources = none ∧ rev = c₂.reverb_duration) := by
      cases hx : rirCell (runCalls mixing h₂ fs) c₂.mird_root c₂.n_sources with
      | none => exact ⟨_, .inr ⟨rfl, rfl⟩⟩
      | some x =>
        obtain ⟨-, c', -, -, -, -, h5⟩ := k1.rir c₂.mird_root c₂.n_sources (by rw [hx]; rfl)
        exact ⟨_, .inl h5⟩
    obtain ⟨rev, hrev⟩ := hex
    rw [← hans rev]
    exact (load_spec mixing k1 c₂).2.2.2.1 hc.1 hc.duration hc.2.2 _ (.inl hS) _ hrev

/-- An unknown tag and more than four sources raise `AssertionError`, after any history. -/
theorem C54_invalid (mixing : ℕ → ℕ → ℕ → ℝ) (h : List Call) (c : Call)
    (hc : c.sisec2010_tag ∉ ["dev1_female3", "dev1_female4"] ∨ 4 < c.n_sources) :
    (load mixing c (runCalls mixing h (emptyFs w))).1 = .error .assertion := by
  have hf := (cached_run mixing h [] (emptyFs w) cached_empty).1
  by_cases ht : c.sisec2010_tag ∈ ["dev1_female3", "dev1_female4"]
  · have hn : 4 < c.n_sources := hc.resolve_left (not_not.mpr ht)
    have h1 := (speech_step hf c).2.2.2.1 hn
    rw [load, if_neg (not_not.mpr ht)]
    generalize downloadSpeech c.sisec2010_root c.n_sources c.sisec2010_tag _ = r at h1
    obtain ⟨res, fs⟩ := r
    cases h1
    rfl
  · rw [load, if_pos ht]

/-- In the convolutive case any other reverberation time raises, after any history: nothing is returned from the cache. -/
theorem C54_invalid_duration (mixing : ℕ → ℕ → ℕ → ℝ) (h : List Call) (c : Call) (hconv : c.conv = true)
    (hc : c.reverb_duration ≠ 16 / 100 ∧ c.reverb_duration ≠ 36 / 100 ∧ c.reverb_duration ≠ 61 / 100) :
    ∃ e, (load mixing c (runCalls mixing h (emptyFs w))).1 = .error e := by
  have hrev : c.reverb_duration ∉ reverbDurations := by simpa [reverbDurations] using hc
  rw [load]
  split
  · exact ⟨_, rfl⟩
  · split
    · exact ⟨_, rfl⟩
    · split
      · split
        · exact ⟨_, rfl⟩
        · have e : ∀ fs : Fs w, downloadRir c.mird_root c.n_sources c.reverb_duration fs = (.error .assertion, fs) :=
            fun _ => if_pos hrev
          simp only [hconv, if_true, e]
          exact ⟨_, rfl⟩
      · exact ⟨_, rfl⟩

/-! ## A web with two different recordings -/

theorem mapM_ok_get {α β : Type} {g : α → Except PyErr β} : ∀ {l : List α} {r : List β}, l.mapM g = .ok r →
    r.length = l.length ∧ ∀ i (h : i < l.length) (h' : i < r.length), g l[i] = .ok r[i]
  | [], r, h => by
    cases h
    exact ⟨rfl, fun i h => absurd h (by simp)⟩
  | a :: l, r, h => by
    rw [List.mapM_cons] at h
    cases ha : g a with
    | error e => rw [ha] at h; cases h
    | ok b =>
      rw [ha] at h
      cases hl : l.mapM g with
      | error e => rw [hl] at h; cases h
      | ok r' =>
        rw [hl] at h
        cases h
        obtain ⟨h1, h2⟩ := mapM_ok_get hl
        refine ⟨by rw [List.length_cons, List.length_cons, h1], fun i hi hi' => ?_⟩
        cases i with
        | zero => exact ha
        | succ i => exact h2 i (by simpa using hi) (by simpa using hi')

theorem stack_ok {l out : List (List (List ℝ))} (h : load.stack l = .ok out) : out = l := by
  unfold load.stack at h
  split at h
  · cases h
  · split_ifs at h
    · cases h
      rfl

/-- C54: what a convolutive image is. If the call succeeds, it returns one image per source with one channel per
impulse response; sample `i` of a channel is the convolution of the recording, cut after `max_samples` samples, with the impulse
response, and the image is as long as the cut recording. -/
theorem C54_convolution (w : Web) (mixing : ℕ → ℕ → ℕ → ℝ) (c : Call) (hconv : c.conv = true) (tag : String)
    (reverb : ℚ) {out : List (List (List ℝ))} (h : answer w mixing c tag reverb = .ok out) :
    ∃ src, speechData w tag c.n_sources = .ok src ∧ out.length = c.n_sources ∧
      ∀ k (hk : k < out.length), (out[k]).length = ((rirData w reverb c.n_sources).getD k []).length ∧
        ∀ ch (hch : ch < (out[k]).length), (out[k][ch]).length = min c.max_samples (src.getD k []).length ∧
          ∀ i (hi : i < (out[k][ch]).length), out[k][ch][i] =
            ∑ p ∈ Finset.antidiagonal i, (src.getD k []).getD p.1 0 *
              (((rirData w reverb c.n_sources).getD k []).getD ch []).getD p.2 0 := by
  rw [answer] at h
  cases hs : speechData w tag c.n_sources with
  | error e => rw [hs] at h; cases h
  | ok src =>
    rw [hs] at h
    refine ⟨src, rfl, ?_⟩
    simp only [bind, Except.bind, hconv, if_true] at h
    cases hm : (List.range c.n_sources).mapM fun k =>
        convImage c.max_samples (src.getD k []) ((rirData w reverb c.n_sources).getD k []) with
    | error e => rw [hm] at h; cases h
    | ok images =>
      rw [hm] at h
      have ho := stack_ok h
      subst ho
      obtain ⟨h1, h2⟩ := mapM_ok_get hm
      rw [List.length_range] at h1
      refine ⟨h1, fun k hk => ?_⟩
      have h3 := h2 k (by rw [List.length_range]; omega) hk
      rw [List.getElem_range] at h3
      obtain ⟨h4, h5⟩ := mapM_ok_get h3
      refine ⟨h4, fun ch hch => ?_⟩
      have h6 := h5 ch (by omega) hch
      rw [convolve] at h6
      split_ifs at h6
      have h7 := (Except.ok.inj h6).symm
      have hlen : (out[k][ch]).length = min c.max_samples (src.getD k []).length := by
        rw [h7, List.length_map, List.length_range, List.length_take]
      refine ⟨hlen, fun i hi => ?_⟩
      have hget : out[k][ch][i] = ((List.range (i + 1)).map fun j =>
          ((src.getD k []).take c.max_samples).getD j 0 *
            (((rirData w reverb c.n_sources).getD k [])[ch]'(by omega)).getD (i - j) 0).sum := by
        simp only [h7, List.getElem_map, List.getElem_range]
      have hd : ((rirData w reverb c.n_sources).getD k []).getD ch [] =
          ((rirData w reverb c.n_sources).getD k [])[ch]'(by omega) := List.getD_eq_getElem _ _ _
      rw [hget, Finset.Nat.sum_antidiagonal_eq_sum_range_succ_mk, hd]
      change _ = ((List.range (i + 1)).map _).sum
      congr 1
      refine List.map_congr_left fun j hj => ?_
      have hj' := List.mem_range.1 hj
      have ht : ((src.getD k []).take c.max_samples).getD j 0 = (src.getD k []).getD j 0 := by
        have a1 : j < (src.getD k []).length := by omega
        have a2 : j < ((src.getD k []).take c.max_samples).length := by rw [List.length_take]; omega
        have a3 := List.getD_eq_getElem (src.getD k []) 0 a1
        have a4 := List.getD_eq_getElem ((src.getD k []).take c.max_samples) 0 a2
        rw [a3, a4, List.getElem_take]
      rw [ht]

/-- Two one-sample recordings and constant impulse responses. -/
noncomputable def demoWeb : Web where
  Rir := Unit
  speech tag _ := if tag = "dev1_female3" then some [1] else if tag = "dev1_female4" then some [2] else none
  hasMatrix _ := true
  rir _ _ := ()
  resample _ _ := [1]

/-- Ask for two sources of a tag, without convolution. -/
def demoCall (tag : String) : Call := ⟨"a", "b", 2, tag, 1, 16 / 100, false⟩

theorem demo_answer (tag : String) (x : ℝ) (c : Call) (hc : c = demoCall tag) (t : String)
    (h : speechData demoWeb t 2 = .ok [[x], [x]]) (rev : ℚ) :
    answer demoWeb (fun _ _ _ => 1) c t rev = .ok [[[x], [x]], [[x], [x]]] := by
  subst hc
  have h' : speechData demoWeb t (demoCall tag).n_sources = .ok [[x], [x]] := h
  rw [answer, h']
  simp [bind, Except.bind, demoCall, List.range_succ, load.stack]

theorem demo_data3 : speechData demoWeb "dev1_female3" 2 = .ok [[1], [1]] := rfl

theorem demo_data4 : speechData demoWeb "dev1_female4" 2 = .ok [[2], [2]] := by
  simp [speechData, demoWeb, List.range_succ, List.mapM_cons, bind, Except.bind, pure, Except.pure]

/-- A user who asks for `dev1_female3` and afterwards for `dev1_female4` is given `dev1_female3` twice, although the two
recordings differ and the second call alone would have returned the right one. -/
theorem C54_stale :
    (load (fun _ _ _ => 1) (demoCall "dev1_female4") (emptyFs demoWeb)).1 = .ok [[[2], [2]], [[2], [2]]] ∧
    (load (fun _ _ _ => 1) (demoCall "dev1_female4")
      (runCalls (fun _ _ _ => 1) [demoCall "dev1_female3"] (emptyFs demoWeb))).1 = .ok [[[1], [1]], [[1], [1]]] := by
  have v3 : (demoCall "dev1_female3").Valid := by simp [Call.Valid, demoCall]
  have v4 : (demoCall "dev1_female4").Valid := by simp [Call.Valid, demoCall]
  constructor
  · exact (C54_requested (w := demoWeb) _ [] _ v4 (by simp) (by simp)).trans
      (demo_answer "dev1_female4" 2 _ rfl _ demo_data4 _)
  · refine (C54_first_wins (w := demoWeb) _ [] [] (demoCall "dev1_female3") (demoCall "dev1_female4") v4 (by simp) ?_ rfl
      rfl rfl (by simp [demoCall])).trans (demo_answer "dev1_female4" 1 _ rfl _ demo_data3 _)
    exact ⟨_, (C54_requested (w := demoWeb) _ [] _ v3 (by simp) (by simp)).trans
      (demo_answer "dev1_female3" 1 _ rfl _ demo_data3 _)⟩

/-- Recordings and impulse responses with two samples. -/
noncomputable def demoWeb2 : Web where
  Rir := Unit
  speech _ _ := some [1, 2]
  hasMatrix _ := true
  rir _ _ := ()
  resample _ _ := [1, 3]

/-- A call that is covered by `C54_convolution`: one source, `[1, 2]` convolved with `[1, 3]` and cut to two samples. -/
example : answer demoWeb2 (fun _ _ _ => 1) ⟨"a", "b", 1, "dev1_female3", 5, 16 / 100, true⟩ "dev1_female3" (16 / 100) =
    .ok [[[1, 5]]] := by
  have h : ((16000 : ℚ) * (16 / 100)).floor.toNat = 2560 := by
    rw [show (16000 : ℚ) * (16 / 100) = (2560 : ℤ) by norm_num, Rat.floor_intCast]
    rfl
  have hr : rirData demoWeb2 (16 / 100) 1 = [[[1, 3]]] := by
    simp [rirData, demoWeb2, h]
  have hs : speechData demoWeb2 "dev1_female3" 1 = .ok [[1, 2]] := rfl
  simp [answer, hr, hs, bind, Except.bind, pure, Except.pure, convImage, convolve, load.stack,
    List.range_succ]
  norm_num

end Verif.Dataset
