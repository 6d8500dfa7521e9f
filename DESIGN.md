# Formal model of ssspy — design

## Trusted base

* Lean 4.33.0's kernel, and Mathlib for the meaning of the definitions used in statements (`Matrix`, `Complex`,
  `Real.log`, `HasDerivAt`, ...).
* Axioms: every theorem depends on at most `propext`, `Classical.choice`, `Quot.sound`. No own axioms, no `sorry`, no
  `native_decide`, no `bv_decide`.
* The reading of `/repo` that produced the model. The code is not run. Every model definition cites the file and
  lines it models and says where it is simplified.
* **Arithmetic.** NumPy floats are exact real / complex numbers. Rounding, overflow, NaN and infinities are outside
  the model. Where the code divides by a number that could be zero the theorems carry a hypothesis that excludes
  zero; Lean's `x / 0 = 0` is never relied upon for a positive claim. Integer samples and file bytes in `ssspy.io` are
  modelled exactly (bytes, two's complement, 32-bit fields).
* **External routines.** `numpy.linalg.inv`, `solve`, `slogdet` are Mathlib's inverse and determinant, with
  `LinAlgError` for singular matrices. `eigh`, `cholesky`, `svd` are fields of `structure Numpy`, only assumed to meet
  the contract numpy documents; `argsort` is a parameter meeting its contract. Theorems hold for *every* such value and
  `Lemmas/Numpy.lean` constructs one, so they are not vacuous. `numpy.fft.irfft` of a real even spectrum is its defining
  cosine sum. Random numbers are not modelled: theorems quantify over the initial values, or over the
  numbers drawn (C85–C88).
* **Exceptions** are values (`Except PyErr α`). **Arrays** are functions of their indices; shapes are part of the type,
  except where a property is about shapes (I/O), where they are data. Leading batch axes are mapped over
  independently (`onBins`): the batch fails when one of its members fails. **Aliasing** is modelled with an explicit store
  in C29 only; elsewhere arrays are values.

## Layout

`lean/Verif/Model/*` – the model, function by function, citing `/repo`.
`lean/Verif/Spec/*` – specifications that do not mention model helpers (where not inlined in the statement).
`lean/Verif/Lemmas/*` – helper lemmas.
`lean/Verif/Props/*` – the property theorems `Cxx_...` with their non-vacuity `example`s.

## What is modelled

| code | model | properties |
|------|-------|------------|
| `io/__init__.py` | `Io` (byte lists, write events, memmap) | C01–C07 |
| `utils/select_pair.py`, `bss/_select_pair.py` | `SelectPair` | C08, C09 |
| `bss/base.py` | `Base` (`__call__` over an abstract method, event log), `Run` (the loop over `update_once`), `RecordLoss` (the option `record_loss`) | C10, C11, C71–C73, C103 |
| `special/*`, `bss/_psd.py`, `bss/_flooring.py` | `Special` | C12, C13, C79 |
| `linalg/*` | `Linalg`, `Lqpqm` | C14–C19, C55, C79 |
| `transform/*` | `Transform` | C20, C21, C80 |
| `algorithm/projection_back.py`, `minimal_distortion_principle.py` | `Scale` | C22–C25 |
| `restore_scale`, `apply_*`, `_reset`, `__call__` of the IVA family | `Lifecycle` | C26, C49 |
| `utils/flooring.py` and the `flooring_fn` arguments of AuxIVA and ILRMA | `Flooring` | C82 |
| `algorithm/permutation_alignment.py` | `Permutation` | C27–C29, C81 |
| `bss/_update_spatial_model.py` | `Spatial`, `Overwrite`, `Ipa` | C29–C35, C61, C68 |
| `bss/iva.py` AuxIVA, AuxLaplaceIVA, AuxGaussIVA; IP1, IP2, ISS1, ISS2, IPA | `Iva`, `IvaCall`, `Run`, `Ipa` | C36, C61, C68, C70–C73, C80, C83, C88, C89, C96, C109, C118 |
| `bss/fdica.py` AuxFDICA, AuxLaplaceFDICA | `Fdica`, `FdicaCall` | C37, C62, C70–C73, C80, C83, C84, C88, C89, C96, C101, C118 |
| `bss/ilrma.py` Gauss, t, GGD; partitioned or not; IP1, IP2, ISS1, ISS2, IPA; normalizations | `Ilrma`, `IlrmaCall`, `Ipa` | C38–C41, C63, C68, C69, C71, C73, C76, C80, C83, C86, C88, C96, C100, C102, C109, C110, C113, C118 |
| `bss/mnmf.py` FastGaussMNMF, GaussMNMF; partitioned or not | `Mnmf`, `MnmfPart`, `MnmfCall` | C41–C44, C56, C64, C66, C71, C73, C76–C80, C83, C87, C95, C96, C106–C108, C112, C114, C118 |
| `bss/cacgmm.py` | `Cacgmm`, `CacgmmCall` | C45, C46, C65, C73, C77, C79, C83, C85, C95, C96, C111, C115 |
| `bss/ica.py`, `iva.py` FastICA, FastIVA, FasterIVA | `Fast`, `GradCall` | C47, C74, C75, C80, C83, C93, C117 |
| `bss/ica.py`, `fdica.py`, `iva.py` gradient and natural gradient | `Grad`, `GradCall` | C48, C57, C73, C83, C84, C93, C97, C101, C118 |
| `bss/admmbss.py`, `pdsbss.py`, `proxbss.py` | `ProxBss`, `ProxCall`, `SpectralNorm` | C50, C51, C58, C90, C91, C99 |
| constructors of `bss/admmbss.py`, `pdsbss.py`, `proxbss.py`, `hva.py`, and of `PDSIVA`, `ADMMIVA` in `iva.py` | `ProxConfig` | C98 |
| constructors and dispatch on algorithm names of `bss/ilrma.py`, `iva.py`, `fdica.py`, `mnmf.py`, `ipsdta.py` | `Config` | C92 |
| function arguments of the constructors of `bss/ica.py`, `fdica.py`, `iva.py` | `FnConfig` | C104 |
| `bss/hva.py` | `Hva` | C52 |
| `bss/ipsdta.py` | `Blocks`, `Ipsdta`, `IpsdtaCall` | C41, C53, C59, C60, C67, C71, C73, C79, C94, C96, C105, C116, C118 |
| `utils/dataset/*` | `Dataset` (file store, the web as a parameter) | C54 |

Not modelled: callbacks that mutate the method object, `__repr__`, downloading itself.

## Conventions in the statements

* **Flooring.** Monotonicity is a property of the unfloored updates. Theorems are stated for an arbitrary flooring
  function under the hypothesis that it does not alter the values it meets in that iteration (`Exact`, `FloorMild`,
  `GReg`, `TReg`, ...). `flooring_fn=None` meets it trivially where the arguments are positive. What flooring itself
  guarantees, and what it breaks, is C41. With `max_flooring` the case in which floors are active in the source model is
  `C38_gauss_max_flooring` and `C39_student_max_flooring`.
* **Runs.** `lossList step loss n s` is the recorded loss of `n` iterations from `s`. `RegularRun`, `RegularFold` say
  that a condition holds at every state the run really visits (not at all states).
* **Monotone is not enough.** A separator that does nothing has a monotone loss. C61–C67 therefore say that an
  iteration makes the loss *strictly* smaller unless all directional derivatives of the loss vanish, and that a
  stationary state is left unchanged up to the normalisation. Likewise C31–C35 say that each step is the best of all steps
  of its kind.
* **Relations between runs.** C71–C73 and C83 compare two complete runs on related recordings, exceptions included:
  `Except.map e` says that the second run raises exactly if the first one does and that otherwise its result is `e` of
  the first one. C72 is about `flooring_fn=None` only, since a fixed floor does see the level. C71 leaves out ILRMA with
  projection back normalisation, which refers to a channel and so does see a remixing.
* IP2 may move at stationary points (it solves a pair exactly), so C61–C63 state one direction for IP2 / ISS2.
* IPSDTA: `to_psd` inside `compute_loss` uses a hard-coded floor of 1e-10, so derivatives in C67 are those of the
  formula without that floor, which agrees with `compute_loss` where the floor is inactive. For the filters "no row can
  be improved" is stronger than stationary, and the exact characterisation uses it.
* GaussMNMF: the Riccati step is degenerate when the vectors `R⁻¹x` do not span; C56 covers rank-one inputs under the
  non-degeneracy hypothesis, which is also the case in which the code does not divide by zero.

## Findings (the expected property is false; what holds instead is proved)

* C05 negative `frame_offset` reads header bytes as samples.
* C06 a float sample of exactly 1.0 wraps to -1.0 when written as 16 bit.
* C26 FastIVA with `minimal_distortion_principle`: reported filter and output disagree.
* C27 `ScoreBasedPermutationSolver` with `global_iter=0` raises `NameError`.
* C29 `score_based_permutation_solver` with `overwrite=True` does not overwrite the sequence itself, only the extra
  arguments.
* C41 power normalisation of ILRMA can take bases below the floor. IPSDTA does not floor its activations: those of a silent frame
  become zero.
* C49 a second call of an ISS/IPA separator fails: the attribute `demix_filter` is `None`.
* C50 the ADMM filter step misses a transpose: it solves another equation than the least-squares one, fixed points need
  not be stationary.
* C52 HVA keeps the attenuation of its first call for later calls.
* C53 `n_blocks=0` raises `ZeroDivisionError`.
* C54 the data loader's cache key ignores tag and reverberation time: later calls return the recordings of the first.
* C55 `lqpqm2` returns the documented minimiser only when the largest eigenvalue is one (otherwise the solution of a
  rescaled problem); for `v = 0` it takes a row instead of a column of the eigenvector matrix; `max_iter=0` raises
  `NameError`.
* C57 the non-holonomic plain gradient step can ascend.
* C58 `compute_loss` of the proximal methods raises unless the penalty is a list.
* C69 with `partitioning=True` an iteration of GaussILRMA can increase the loss: `update_latent` divides the latent
  variables by their sums without multiplying the bases by them (the power normalisation does).
* C75 FasterIVA takes the eigenvector of the largest eigenvalue of the weighted covariance; an update can mix perfectly
  separated outputs again and increase the loss.
* C79 `prox.neg_logdet` of a singular matrix depends on the singular vectors LAPACK happens to return.
* C78 with `partitioning=True` an iteration of GaussMNMF can increase the loss: the default normalisation divides the
  spatial covariances by their traces and nothing undoes that, and `update_latent` does what C69 describes. By
  C108 this is where the class with hard assignments departs from the class without partitioning.
* C80 when the two weighted covariances of a pair are proportional, IP2 leaves the choice of filters to LAPACK: two
  correct builds give different losses and different projection-back outputs.
* C81 score_based_permutation_solver divides the correlations with the other references by the spread of the own
  reference (broadcast over the wrong axis), so they are not correlation coefficients and a worse order can win.
* C82 `flooring_fn=None` in a method call, documented as the identity, raises `AssertionError` (`choose_flooring_fn`
  asserts that no object is given when the argument is `None`).
* C85 CACGMM: `permutation_alignment="posterior_correlation"`, listed in the dispatch, always ends in `AssertionError`
  after all iterations; an unknown option or `global_iter=0` is also found out only then; a second call with
  `initial_call=False` does not resume but draws new random parameters.
* C86 ILRMA: scale restoration rescales the filter but not the source model, so a resumed `GaussILRMA` run starts at a
  higher loss than the one it stopped at; the initial latent variables are floored after normalising, so they need not
  sum to one.
* C88 ILRMA with `normalization="projection_back"` on a recording whose channels never sound together: one iteration
  silences every source but the reference (their projection coefficient is zero), and scale restoration then raises.
  AuxGaussIVA does not floor its variance: a silent frame gives 0/0.
* C89 AuxGaussIVA resets its variance at every call, so a resumed call with the default `initial_call=True` records a loss
  of another state than the one reached; it can be larger although nothing changed.
* C90 ADMMBSS never reads its demixing filter: the keyword `demix_filter` is without effect, and one iteration of a new object
  gives the zero filter (projection back then raises). PDSBSS does not resume through scale restoration.
* C92 A misspelt `scale_restoration` (or `permutation_alignment`) passes the constructor and raises only after all iterations;
  IPSDTA's documented `EM` and `FPI` are accepted but not implemented.
* C98 `ADMMBSS(prox_penalty=f)` with all other arguments at their defaults raises `AssertionError` (the default is
  `record_loss=True` without a penalty), and no combination of arguments lets a masking method record its losses.
* C118 other microphones in the span of the old ones, complete calls: the output changes by the factor of the reference channel.
* C117 FastICA, FastIVA, FasterIVA and remixed recordings: the same run in rotated whitened coordinates.
* C116 IPSDTA and gains: filters do not see gains per bin, phases or `source_normalization`; the output is multiplied by the gains.
* C115 CACGMM and remixed recordings: the same posteriors under invertible mixings of the channels, gains of microphones, normalization; also the permutation solvers take the same decisions.
* C114 GaussMNMF and remixed recordings: equivariance under invertible mixings of the channels, independence of normalization.
* C113 Gains per bin pass through ILRMA: bases that follow the gains, the same filters, the output with the gains.
* C112 The scales of FastGaussMNMF are redundant: with flooring off `normalization` and the split of the scale over the factors
  change nothing that a user hears, and gains per bin pass through when the bases follow.
* C111 CACGMM normalises every observation vector, so a gain per bin and frame passes straight through to the output.
* C110 With flooring off and scale restoration on, `normalization` changes nothing but the bases (and rounding). Partitioned ILRMA
  differs: its latent variables are renormalised over the sources without compensation in the bases.
* C109 With two sources the default pair selector yields the pair twice. `GaussILRMA`, `TILRMA`, `GGDILRMA` and `AuxGaussIVA` then
  compute the same update twice in every iteration; `AuxIVA` with IP2 makes two steps per iteration and with ISS2 one.
* C104 `AuxIVA` accepts missing functions and `AuxFDICA` a missing derivative; the calls then raise `TypeError`. The gradient
  methods insist on a contrast function even with `record_loss=False`, where nothing uses it.
* C103 With ISS1 or ISS2 and linearly dependent channels `record_loss=True` (the default) raises `LinAlgError` where
  `record_loss=False` returns.
* C100 `GGDILRMA` tends to `GaussILRMA` as `beta` approaches 2 except at entries that are exactly zero: there the weight
  tends to the Gaussian weight divided by the floor of zero (10¹⁰ times larger with the default).
* C94 IPSDTA has no parameter `initial_call`: `initial_call=False` only creates an attribute, and the loss at an interruption is recorded
  twice.

Observed while reading, not formalised: IPSDTA with `flooring_fn=None` and `n_blocks = n_bins` gives NaN in
`sqrtmh`-based updates.

## Seeded bugs

`seeded/LOG.jsonl` records edits of the model that imitate realistic bugs, made in a scratch copy. `failed` lists the
theorems whose proof broke. A broken proof does not by itself show that the statement became false; for each edit the
claim named in `claim` was checked on paper to be false for the edited program. Edits under which a claim stayed
provable although a user would call the program wrong led to the stronger claims listed under `tightened`.
