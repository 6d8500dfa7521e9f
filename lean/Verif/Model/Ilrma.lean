import Mathlib.Analysis.SpecialFunctions.Pow.Real
import Verif.Model.Iva

/-!
# ILRMA: `bss/ilrma.py`, classes `ILRMABase`, `GaussILRMA`, `TILRMA`, `GGDILRMA`

The three classes repeat the same code with different elementwise formulas. The formulas are collected in `Source`;
the updates are written once and take a `Source`. `F` is the set of bins, `n` the number of sources (= channels),
`t` of frames, `K` of bases. `y` stands for the magnitude of a separated signal and `r` for the reconstructed NMF
model at one point. Powers with real exponents are `Real.rpow`.

Two states are modelled: with a demixing filter (IP1, IP2) and with `demix_filter = None` (ISS1, ISS2, and in
`Verif.Model.Ipa` IPA). The seed of the random initial values is not modelled: theorems quantify over the initial values.
-/

namespace Verif.Ilrma

open Matrix Spatial Scale

/-- The elementwise formulas of one class. -/
structure Source where
  /-- The summand of `compute_loss`. -/
  ell : ℝ → ℝ → ℝ
  /-- The factor of `V` (or `T`, `TV`, ...) in `num` of the source updates. -/
  num : ℝ → ℝ → ℝ
  /-- The exponent of `num / denom`. -/
  expo : ℝ
  /-- `varphi` of the spatial updates; the argument is `flooring_fn`. -/
  phi : (ℝ → ℝ) → ℝ → ℝ → ℝ

/-- `GaussILRMA`, `source_algorithm="MM"`: loss L1955/L1960, `num` L1107-1109/L1118-1120/L1194-1196, exponent L1098,
weights L1491-1498. -/
noncomputable def gauss (p : ℝ) : Source where
  ell y r := y ^ 2 / r ^ (2 / p) + 2 / p * Real.log r
  num y r := y ^ 2 / r ^ ((p + 2) / p)
  expo := p / (p + 2)
  phi _ _ r := 1 / r ^ (2 / p)

/-- `GaussILRMA`, `source_algorithm="ME"` (requires `domain == 2`): L1304-1322, L1380-1398; `(num / denom) * T` is
written with the exponent one. -/
noncomputable def gaussME : Source where
  ell y r := y ^ 2 / r ^ (2 / (2 : ℝ)) + 2 / 2 * Real.log r
  num y r := y ^ 2 / r ^ 2
  expo := 1
  phi _ _ r := 1 / r ^ (2 / (2 : ℝ))

/-- `R_tilde = nu_nu2 * TV2p + (1 - nu_nu2) * Y2`, L2510. -/
noncomputable def rTilde (p nu y r : ℝ) : ℝ := nu / (nu + 2) * r ^ (2 / p) + (1 - nu / (nu + 2)) * y ^ 2

/-- `TILRMA`, MM: loss L3304-3305, `num` L2510-2513, exponent L2486, weights L2931-2933. -/
noncomputable def student (p nu : ℝ) : Source where
  ell y r := (1 + nu / 2) * Real.log (1 + 2 / nu * (y ^ 2 / r ^ (2 / p))) + 2 / p * Real.log r
  num y r := y ^ 2 / (rTilde p nu y r * r)
  expo := p / (p + 2)
  phi _ y r := 1 / rTilde p nu y r

/-- `TILRMA`, ME (requires `domain == 2`): L2732-2740. -/
noncomputable def studentME (nu : ℝ) : Source where
  ell y r := (1 + nu / 2) * Real.log (1 + 2 / nu * (y ^ 2 / r ^ (2 / (2 : ℝ)))) + 2 / 2 * Real.log r
  num y r := y ^ 2 / ((nu / (nu + 2) * r + (1 - nu / (nu + 2)) * y ^ 2) * r)
  expo := 1
  phi _ y r := 1 / rTilde 2 nu y r

/-- `GGDILRMA`, MM: loss L4380-4381, `num` L3814-3816 (with the constant `beta / 2` moved into the sum), exponent
L3793, weights L3994-4011. -/
noncomputable def ggd (p beta : ℝ) : Source where
  ell y r := y ^ beta / r ^ (beta / p) + 2 / p * Real.log r
  num y r := beta / 2 * (y ^ beta / r ^ ((beta + p) / p))
  expo := p / (beta + p)
  phi floor y r := 1 / (2 / beta * floor (y ^ (2 - beta)) * r ^ (beta / p))

variable {F : Type} [Fintype F] {n t K : ℕ}

/-! ## Source model without partitioning -/

/-- `reconstruct_nmf`, L318-320. -/
def recon (T : Fin n → F → Fin K → ℝ) (V : Fin n → Fin K → Fin t → ℝ) (k : Fin n) (f : F) (s : Fin t) : ℝ :=
  ∑ b, T k f b * V k b s

/-- `((num / denom) ** expo) * T` of `update_basis_mm`, L1114-1125; `update_basis_me` L1304-1322; `TILRMA` L2505-2518, ME
L2728-2740; `GGDILRMA` L3810-3821. -/
noncomputable def basisRaw (src : Source) (Y : Spec F n t) (T : Fin n → F → Fin K → ℝ)
    (V : Fin n → Fin K → Fin t → ℝ) (k : Fin n) (f : F) (b : Fin K) : ℝ :=
  let num := ∑ s, V k b s * src.num ‖Y f k s‖ (recon T V k f s)
  let denom := ∑ s, V k b s / recon T V k f s
  (num / denom) ^ src.expo * T k f b

/-- `update_basis_mm`, L1086-1128; `update_basis_me` L1284-1325; `TILRMA` L2475-2521, ME L2698-2743; `GGDILRMA` L3782-3824. -/
noncomputable def updateBasis (src : Source) (floor : ℝ → ℝ) (Y : Spec F n t) (T : Fin n → F → Fin K → ℝ)
    (V : Fin n → Fin K → Fin t → ℝ) : Fin n → F → Fin K → ℝ := fun k f b => floor (basisRaw src Y T V k f b)

/-- `((num / denom) ** expo) * V` of `update_activation_mm`, L1190-1201; ME L1380-1398; `TILRMA` L2592-2605, ME L2812-2824;
`GGDILRMA` L3891-3902. -/
noncomputable def activationRaw (src : Source) (Y : Spec F n t) (T : Fin n → F → Fin K → ℝ)
    (V : Fin n → Fin K → Fin t → ℝ) (k : Fin n) (b : Fin K) (s : Fin t) : ℝ :=
  let num := ∑ f, T k f b * src.num ‖Y f k s‖ (recon T V k f s)
  let denom := ∑ f, T k f b / recon T V k f s
  (num / denom) ^ src.expo * V k b s

/-- `update_activation_mm`, L1163-1204; `update_activation_me` L1360-1401; `TILRMA` L2562-2608, ME L2782-2827; `GGDILRMA`
L3863-3905. -/
noncomputable def updateActivation (src : Source) (floor : ℝ → ℝ) (Y : Spec F n t) (T : Fin n → F → Fin K → ℝ)
    (V : Fin n → Fin K → Fin t → ℝ) : Fin n → Fin K → Fin t → ℝ :=
  fun k b s => floor (activationRaw src Y T V k b s)

/-! ## Source model with partitioning -/

/-- `reconstruct_nmf` with `latent`, L321-325. -/
def reconP (Z : Fin n → Fin K → ℝ) (T : F → Fin K → ℝ) (V : Fin K → Fin t → ℝ) (k : Fin n) (f : F) (s : Fin t) : ℝ :=
  ∑ b, Z k b * (T f b * V b s)

/-- `Z = ((num / denom) ** p_p2) * Z` of `update_latent_mm`, L1029-1046; `TILRMA` L2410-2429, ME L2637-2654; `GGDILRMA`
L3723-3740. -/
noncomputable def latentRaw (src : Source) (Y : Spec F n t) (Z : Fin n → Fin K → ℝ) (T : F → Fin K → ℝ)
    (V : Fin K → Fin t → ℝ) (k : Fin n) (b : Fin K) : ℝ :=
  let num := ∑ f, ∑ s, T f b * V b s * src.num ‖Y f k s‖ (reconP Z T V k f s)
  let denom := ∑ f, ∑ s, T f b * V b s / reconP Z T V k f s
  (num / denom) ^ src.expo * Z k b

/-- `update_latent_mm`, L1021-1049: `Z = Z / Z.sum(axis=0)`; `update_latent_me` L1220-1247; `TILRMA` L2401-2432, ME
L2626-2657; `GGDILRMA` L3714-3743. -/
noncomputable def updateLatent (src : Source) (Y : Spec F n t) (Z : Fin n → Fin K → ℝ) (T : F → Fin K → ℝ)
    (V : Fin K → Fin t → ℝ) : Fin n → Fin K → ℝ :=
  fun k b => latentRaw src Y Z T V k b / ∑ k', latentRaw src Y Z T V k' b

/-- The partitioned branch of `update_basis_mm`, L1100-1125; `TILRMA` L2489-2503, ME L2713-2726; `GGDILRMA` L3796-3808. -/
noncomputable def basisRawP (src : Source) (Y : Spec F n t) (Z : Fin n → Fin K → ℝ) (T : F → Fin K → ℝ)
    (V : Fin K → Fin t → ℝ) (f : F) (b : Fin K) : ℝ :=
  let num := ∑ k, ∑ s, Z k b * V b s * src.num ‖Y f k s‖ (reconP Z T V k f s)
  let denom := ∑ k, ∑ s, Z k b * V b s / reconP Z T V k f s
  (num / denom) ^ src.expo * T f b

noncomputable def updateBasisP (src : Source) (floor : ℝ → ℝ) (Y : Spec F n t) (Z : Fin n → Fin K → ℝ)
    (T : F → Fin K → ℝ) (V : Fin K → Fin t → ℝ) : F → Fin K → ℝ := fun f b => floor (basisRawP src Y Z T V f b)

/-- The partitioned branch of `update_activation_mm`, L1176-1201; `TILRMA` L2576-2590, ME L2797-2810; `GGDILRMA` L3877-3889. -/
noncomputable def activationRawP (src : Source) (Y : Spec F n t) (Z : Fin n → Fin K → ℝ) (T : F → Fin K → ℝ)
    (V : Fin K → Fin t → ℝ) (b : Fin K) (s : Fin t) : ℝ :=
  let num := ∑ k, ∑ f, Z k b * T f b * src.num ‖Y f k s‖ (reconP Z T V k f s)
  let denom := ∑ k, ∑ f, Z k b * T f b / reconP Z T V k f s
  (num / denom) ^ src.expo * V b s

noncomputable def updateActivationP (src : Source) (floor : ℝ → ℝ) (Y : Spec F n t) (Z : Fin n → Fin K → ℝ)
    (T : F → Fin K → ℝ) (V : Fin K → Fin t → ℝ) : Fin K → Fin t → ℝ :=
  fun b s => floor (activationRawP src Y Z T V b s)

/-! ## Spatial model -/

/-- `varphi` of `update_spatial_model_*`, L1494-1503; `TILRMA` L2916-2933, L3045-3063, L3125-3143, L3228-3246; `GGDILRMA`
L3994-4011, L4124-4141, L4203-4220 (where it is written `beta / (2 * R_bar)`), L4306-4323; `R` is the reconstructed source
model. -/
noncomputable def varphi (src : Source) (floor : ℝ → ℝ) (Y : Spec F n t) (R : Fin n → F → Fin t → ℝ) (f : F)
    (k : Fin n) (s : Fin t) : ℝ := src.phi floor ‖Y f k s‖ (R k f s)

/-- The algorithms working on a demixing filter. -/
inductive FilterAlg (n : ℕ)
  | ip1
  | ip2 (pairs : List (Fin n × Fin n))

/-- `update_spatial_model_ip1`, L1500-1507 (`TILRMA` L2935-2942, `GGDILRMA` L4013-4020), and `update_spatial_model_ip2`,
L1624-1633 (`TILRMA` L3065-3074, `GGDILRMA` L4143-4152): the covariances are computed
once. -/
noncomputable def spatialFilter (np : Numpy ℂ) (alg : FilterAlg n) (floor : ℝ → ℝ) (phi : F → Fin n → Fin t → ℝ)
    (X : Spec F n t) (W : F → Mat n ℂ) : Except PyErr (F → Mat n ℂ) :=
  match alg with
  | .ip1 => Iva.ip1Stack floor (fun f => Iva.wcov (phi f) X f) W
  | .ip2 pairs => pairs.foldlM (fun W p => onBins fun f => ip2Pair np floor (Iva.wcov (phi f) X f) (W f) p) W

/-- The algorithms without a demixing filter. -/
inductive SignalAlg (n : ℕ)
  | iss1
  | iss2 (pairs : List (Fin n × Fin n))

/-- `update_spatial_model_iss1`, L1694-1696 (`TILRMA` L3145, `GGDILRMA` L4222), and `update_spatial_model_iss2`, L1788-1792
(`TILRMA` L3248-3250, `GGDILRMA` L4325-4327). -/
noncomputable def spatialSignal (np : Numpy ℂ) (alg : SignalAlg n) (floor : ℝ → ℝ) (phi : F → Fin n → Fin t → ℝ)
    (Y : Spec F n t) : Except PyErr (Spec F n t) :=
  match alg with
  | .iss1 => .ok fun f => iss1 floor (phi f) (Y f)
  | .iss2 pairs => pairs.foldlM (fun Y p => onBins fun f => iss2Pair np floor (phi f) (Y f) p) Y

/-- `compute_loss`, L1936-1967 (`TILRMA` L3280-3312, `GGDILRMA` L4356-4388), from the separated signals, the reconstructed
source model and the filters. -/
noncomputable def lossOf (src : Source) (Y : Spec F n t) (R : Fin n → F → Fin t → ℝ) (W : F → Mat n ℂ) : ℝ :=
  ∑ f, (∑ k, meanT (fun s => src.ell ‖Y f k s‖ (R k f s)) - 2 * Real.log ‖(W f).det‖)

/-- The filter estimated from the signals when there is none, L1938-1944, L3283-3289, L4359-4365. -/
noncomputable def filterOf (X Y : Spec F n t) : Except PyErr (F → Mat n ℂ) := do
  let XXinv ← npInvB fun f => X f * (X f)ᴴ
  .ok fun f => Y f * (X f)ᴴ * XXinv f

/-! ## Normalisation -/

/-- `normalization`, L349-363: off (`False`/`None`), `"power"` (or `True`), `"projection_back"`. -/
inductive Norm (n : ℕ)
  | off
  | power
  | projectionBack (reference_id : Fin n)

/-- `psi = flooring_fn(np.sqrt(np.mean(np.abs(Y) ** 2, axis=(-2, -1))))`, L418-420. -/
noncomputable def psi (floor : ℝ → ℝ) (Y : Spec F n t) (k : Fin n) : ℝ :=
  floor (Real.sqrt ((∑ f, ∑ s, ‖Y f k s‖ ^ 2) / (Fintype.card F * t)))

/-- `W / psi[np.newaxis, :, np.newaxis]` and `Y / psi[:, np.newaxis, np.newaxis]`, L439/L443. -/
noncomputable def divRows {m : ℕ} (psi : Fin n → ℝ) (A : F → Matrix (Fin n) (Fin m) ℂ) :
    F → Matrix (Fin n) (Fin m) ℂ := fun f => Matrix.of fun k j => A f k j / (psi k : ℂ)

/-- `T / (psi ** p)`, L434. -/
noncomputable def divBasis (p : ℝ) (psi : Fin n → ℝ) (T : Fin n → F → Fin K → ℝ) : Fin n → F → Fin K → ℝ :=
  fun k f b => T k f b / psi k ^ p

/-- `Z_psi`, L425. -/
noncomputable def latentPsi (p : ℝ) (psi : Fin n → ℝ) (Z : Fin n → Fin K → ℝ) : Fin n → Fin K → ℝ :=
  fun k b => Z k b / psi k ^ p

/-- L426-428: the new latent variables and bases. -/
noncomputable def normLatent (p : ℝ) (psi : Fin n → ℝ) (Z : Fin n → Fin K → ℝ) : Fin n → Fin K → ℝ :=
  fun k b => latentPsi p psi Z k b / ∑ k', latentPsi p psi Z k' b

noncomputable def normBasisP (p : ℝ) (psi : Fin n → ℝ) (Z : Fin n → Fin K → ℝ) (T : F → Fin K → ℝ) :
    F → Fin K → ℝ := fun f b => T f b * ∑ k', latentPsi p psi Z k' b

/-- `T * np.abs(scale) ** p`, L510-512; `scale` has the axes (bin, source). -/
noncomputable def mulBasis (p : ℝ) (scale : F → Fin n → ℂ) (T : Fin n → F → Fin K → ℝ) : Fin n → F → Fin K → ℝ :=
  fun k f b => T k f b * ‖scale f k‖ ^ p

/-- `W * scale[:, :, np.newaxis]` and `Y * scale[..., np.newaxis]`, L497/L506. -/
noncomputable def mulRows {m : ℕ} (scale : F → Fin n → ℂ) (A : F → Matrix (Fin n) (Fin m) ℂ) :
    F → Matrix (Fin n) (Fin m) ℂ := fun f => Matrix.of fun k j => A f k j * scale f k

/-! ## The four kinds of state -/

/-- With a demixing filter, no partitioning. -/
structure St (F : Type) (n t K : ℕ) where
  W : F → Mat n ℂ
  T : Fin n → F → Fin K → ℝ
  V : Fin n → Fin K → Fin t → ℝ

/-- With a demixing filter and partitioning. -/
structure StP (F : Type) (n t K : ℕ) where
  W : F → Mat n ℂ
  Z : Fin n → Fin K → ℝ
  T : F → Fin K → ℝ
  V : Fin K → Fin t → ℝ

/-- Without a demixing filter, no partitioning. -/
structure StY (F : Type) (n t K : ℕ) where
  Y : Spec F n t
  T : Fin n → F → Fin K → ℝ
  V : Fin n → Fin K → Fin t → ℝ

/-- Without a demixing filter, with partitioning. -/
structure StYP (F : Type) (n t K : ℕ) where
  Y : Spec F n t
  Z : Fin n → Fin K → ℝ
  T : F → Fin K → ℝ
  V : Fin K → Fin t → ℝ

/-- `normalize`, L349-514. -/
noncomputable def normalize (p : ℝ) (floor : ℝ → ℝ) (X : Spec F n t) (norm : Norm n) (s : St F n t K) :
    Except PyErr (St F n t K) :=
  match norm with
  | .off => .ok s
  | .power =>
    let psi := psi floor (separate X s.W)
    .ok ⟨divRows psi s.W, divBasis p psi s.T, s.V⟩
  | .projectionBack r => do
    let scale ← npInvB s.W
    .ok ⟨mulRows (fun f k => scale f r k) s.W, mulBasis p (fun f k => scale f r k) s.T, s.V⟩

noncomputable def normalizeP (p : ℝ) (floor : ℝ → ℝ) (X : Spec F n t) (norm : Norm n) (s : StP F n t K) :
    Except PyErr (StP F n t K) :=
  match norm with
  | .off => .ok s
  | .power =>
    let psi := psi floor (separate X s.W)
    .ok ⟨divRows psi s.W, normLatent p psi s.Z, normBasisP p psi s.Z s.T, s.V⟩
  | .projectionBack _ => .error .notImplemented

noncomputable def normalizeY (p : ℝ) (floor : ℝ → ℝ) (X : Spec F n t) (norm : Norm n) (s : StY F n t K) :
    Except PyErr (StY F n t K) :=
  match norm with
  | .off => .ok s
  | .power =>
    let psi := psi floor s.Y
    .ok ⟨divRows psi s.Y, divBasis p psi s.T, s.V⟩
  | .projectionBack r => do
    let YYinv ← npInvB fun f => s.Y f * (s.Y f)ᴴ
    let scale := fun f => X f * (s.Y f)ᴴ * YYinv f
    .ok ⟨mulRows (fun f k => scale f r k) s.Y, mulBasis p (fun f k => scale f r k) s.T, s.V⟩

noncomputable def normalizeYP (p : ℝ) (floor : ℝ → ℝ) (norm : Norm n) (s : StYP F n t K) :
    Except PyErr (StYP F n t K) :=
  match norm with
  | .off => .ok s
  | .power =>
    let psi := psi floor s.Y
    .ok ⟨divRows psi s.Y, normLatent p psi s.Z, normBasisP p psi s.Z s.T, s.V⟩
  | .projectionBack _ => .error .notImplemented

/-- `update_source_model_mm` / `_me`, L974-978 (`TILRMA` L2354-2358, L2378-2382, `GGDILRMA` L3692-3696): basis, then activation with the new basis. -/
noncomputable def updateSource (src : Source) (floor : ℝ → ℝ) (X : Spec F n t) (s : St F n t K) : St F n t K :=
  let Y := separate X s.W
  let T := updateBasis src floor Y s.T s.V
  ⟨s.W, T, updateActivation src floor Y T s.V⟩

noncomputable def updateSourceY (src : Source) (floor : ℝ → ℝ) (s : StY F n t K) : StY F n t K :=
  let T := updateBasis src floor s.Y s.T s.V
  ⟨s.Y, T, updateActivation src floor s.Y T s.V⟩

noncomputable def updateSourceP (src : Source) (floor : ℝ → ℝ) (X : Spec F n t) (s : StP F n t K) : StP F n t K :=
  let Y := separate X s.W
  let Z := updateLatent src Y s.Z s.T s.V
  let T := updateBasisP src floor Y Z s.T s.V
  ⟨s.W, Z, T, updateActivationP src floor Y Z T s.V⟩

noncomputable def updateSourceYP (src : Source) (floor : ℝ → ℝ) (s : StYP F n t K) : StYP F n t K :=
  let Z := updateLatent src s.Y s.Z s.T s.V
  let T := updateBasisP src floor s.Y Z s.T s.V
  ⟨s.Y, Z, T, updateActivationP src floor s.Y Z T s.V⟩

/-- `update_spatial_model` with a filter. -/
noncomputable def updateSpatial (np : Numpy ℂ) (src : Source) (alg : FilterAlg n) (floor : ℝ → ℝ) (X : Spec F n t)
    (s : St F n t K) : Except PyErr (St F n t K) := do
  let W ← spatialFilter np alg floor (varphi src floor (separate X s.W) (recon s.T s.V)) X s.W
  .ok ⟨W, s.T, s.V⟩

noncomputable def updateSpatialP (np : Numpy ℂ) (src : Source) (alg : FilterAlg n) (floor : ℝ → ℝ)
    (X : Spec F n t) (s : StP F n t K) : Except PyErr (StP F n t K) := do
  let W ← spatialFilter np alg floor (varphi src floor (separate X s.W) (reconP s.Z s.T s.V)) X s.W
  .ok ⟨W, s.Z, s.T, s.V⟩

noncomputable def updateSpatialY (np : Numpy ℂ) (src : Source) (alg : SignalAlg n) (floor : ℝ → ℝ)
    (s : StY F n t K) : Except PyErr (StY F n t K) := do
  let Y ← spatialSignal np alg floor (varphi src floor s.Y (recon s.T s.V)) s.Y
  .ok ⟨Y, s.T, s.V⟩

noncomputable def updateSpatialYP (np : Numpy ℂ) (src : Source) (alg : SignalAlg n) (floor : ℝ → ℝ)
    (s : StYP F n t K) : Except PyErr (StYP F n t K) := do
  let Y ← spatialSignal np alg floor (varphi src floor s.Y (reconP s.Z s.T s.V)) s.Y
  .ok ⟨Y, s.Z, s.T, s.V⟩

/-- `update_once`, L916-922 (`TILRMA` L2296-2302, `GGDILRMA` L3639-3645). -/
noncomputable def updateOnce (np : Numpy ℂ) (src : Source) (p : ℝ) (alg : FilterAlg n) (norm : Norm n)
    (floor : ℝ → ℝ) (X : Spec F n t) (s : St F n t K) : Except PyErr (St F n t K) := do
  let s ← updateSpatial np src alg floor X (updateSource src floor X s)
  normalize p floor X norm s

noncomputable def updateOnceP (np : Numpy ℂ) (src : Source) (p : ℝ) (alg : FilterAlg n) (norm : Norm n)
    (floor : ℝ → ℝ) (X : Spec F n t) (s : StP F n t K) : Except PyErr (StP F n t K) := do
  let s ← updateSpatialP np src alg floor X (updateSourceP src floor X s)
  normalizeP p floor X norm s

noncomputable def updateOnceY (np : Numpy ℂ) (src : Source) (p : ℝ) (alg : SignalAlg n) (norm : Norm n)
    (floor : ℝ → ℝ) (X : Spec F n t) (s : StY F n t K) : Except PyErr (StY F n t K) := do
  let s ← updateSpatialY np src alg floor (updateSourceY src floor s)
  normalizeY p floor X norm s

noncomputable def updateOnceYP (np : Numpy ℂ) (src : Source) (p : ℝ) (alg : SignalAlg n) (norm : Norm n)
    (floor : ℝ → ℝ) (s : StYP F n t K) : Except PyErr (StYP F n t K) := do
  let s ← updateSpatialYP np src alg floor (updateSourceYP src floor s)
  normalizeYP p floor norm s

/-- `compute_loss` in the four kinds of state. -/
noncomputable def loss (src : Source) (X : Spec F n t) (s : St F n t K) : ℝ :=
  lossOf src (separate X s.W) (recon s.T s.V) s.W

noncomputable def lossP (src : Source) (X : Spec F n t) (s : StP F n t K) : ℝ :=
  lossOf src (separate X s.W) (reconP s.Z s.T s.V) s.W

noncomputable def lossY (src : Source) (X : Spec F n t) (s : StY F n t K) : Except PyErr ℝ := do
  let W ← filterOf X s.Y
  .ok (lossOf src s.Y (recon s.T s.V) W)

noncomputable def lossYP (src : Source) (X : Spec F n t) (s : StYP F n t K) : Except PyErr ℝ := do
  let W ← filterOf X s.Y
  .ok (lossOf src s.Y (reconP s.Z s.T s.V) W)

end Verif.Ilrma
