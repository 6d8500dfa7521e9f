{"id": "C01", "title": "WAV write/read round trip", "statement": "Writing a 1- or 2-channel integer waveform with wavwrite and reading the file back with wavread yields the same sampling rate and, frame by frame and channel by channel, exactly the written integer sample divided by 2^(bits-1); the layout (1-D / channels-first / frames-first) requested on reading is the one returned.", "quantifier": "every waveform length, every int8/int16 sample value, 1 or 2 channels, every sampling rate that fits the header, both channels_first settings on write and on read, return_2d on and off", "why_tests_cant": "tests round-trip one or two fixed signals; the claim is about every sample pattern, every length and every layout combination", "anchors": ["ssspy/io/__init__.py::wavread", "ssspy/io/__init__.py::wavwrite", "ssspy/io/__init__.py::_read_fmt_chunk", "ssspy/io/__init__.py::_read_data_chunk", "ssspy/io/__init__.py::_write_fmt_chunk", "ssspy/io/__init__.py::_write_data_chunk"]}
{"id": "C02", "title": "Partial WAV reads are slices of the full read", "statement": "wavread(f, frame_offset=o, num_frames=k) with 0<=o returns exactly frames o..o+k-1 of wavread(f) when o+k does not exceed the number of frames, and raises otherwise; negative num_frames always raises.", "quantifier": "every file produced by wavwrite, every offset o>=0 and every frame count k", "why_tests_cant": "the space of (file, offset, count) triples is unbounded and off-by-one errors show only at the boundary", "anchors": ["ssspy/io/__init__.py::wavread", "ssspy/io/__init__.py::_read_data_chunk"]}
{"id": "C03", "title": "WAV header is consistent with the file", "statement": "Every file produced by wavwrite is 44 bytes longer than its sample data, and its RIFF size, data size, byte rate, block alignment, channel count, bit depth and rate fields equal the values implied by the data; sizes that do not fit in 32 bits are rejected rather than truncated.", "quantifier": "every accepted waveform and sampling rate", "why_tests_cant": "header arithmetic has to hold for all lengths up to the 32-bit limit, which no test writes", "anchors": ["ssspy/io/__init__.py::wavwrite", "ssspy/io/__init__.py::_write_fmt_chunk", "ssspy/io/__init__.py::_write_data_chunk"]}
{"id": "C04", "title": "A crash while writing a WAV never yields wrong samples", "statement": "Whatever prefix of wavwrite's file operations reached the disk before a crash, a later wavread of any window either raises or returns exactly the samples that were being written.", "quantifier": "every waveform, every crash point (each byte written, before or after the final size patch) and every read window with non-negative offset", "why_tests_cant": "crash points cannot be enumerated by unit tests", "anchors": ["ssspy/io/__init__.py::wavwrite", "ssspy/io/__init__.py::wavread"]}
{"id": "C05", "title": "wavread decodes only the data chunk for non-negative offsets", "statement": "For every frame_offset >= 0 and every num_frames, each sample returned by wavread from a file whose block alignment is a multiple of its channel count is decoded from bytes inside the data chunk. A negative frame_offset is not rejected: there are files and offsets for which wavread returns a value decoded from the header.", "quantifier": "every file content, every frame_offset >= 0 and num_frames, every layout option; existence of a failing negative offset", "why_tests_cant": "tests only use valid non-negative offsets", "anchors": ["ssspy/io/__init__.py::wavread", "ssspy/io/__init__.py::_read_data_chunk"]}
{"id": "C06", "title": "Float WAV quantisation error is bounded", "statement": "A float waveform with samples in [-1, 1) written by wavwrite and read back differs from the original by less than one 16-bit quantisation step at every sample. The sample 1.0 is not representable: it comes back with an error of at least one step (as -1.0 with wrapping casts).", "quantifier": "every real sample value in the interval, every length, every platform cast of out-of-range values", "why_tests_cant": "a continuum of sample values; the failing value is an end point", "anchors": ["ssspy/io/__init__.py::wavwrite", "ssspy/io/__init__.py::_write_data_chunk", "ssspy/io/__init__.py::wavread"]}
{"id": "C07", "title": "WAV argument validation is exact", "statement": "wavwrite succeeds exactly when the path ends in .wav, the data is 1-D, or 2-D with 1 or 2 channels in the declared layout, of float, int8 or int16 type, the sampling rate is positive and all header fields fit; otherwise it raises. wavread rejects every fmt chunk that is not 16-byte PCM with consistent byte rate.", "quantifier": "every combination of path, shape, dtype class, rate and every possible header content", "why_tests_cant": "the rejection logic is a cross product of conditions on unbounded integers", "anchors": ["ssspy/io/__init__.py::wavread", "ssspy/io/__init__.py::wavwrite", "ssspy/io/__init__.py::_read_fmt_chunk"]}
{"id": "C08", "title": "Sequential pair selector yields valid, covering pairs", "statement": "For n>=2 sources sequential_pair_selector yields only pairs of two different in-range cyclically neighbouring indices, whatever stop and step; with the default stop and step every source is the first index of exactly one pair and the second index of exactly one pair (unsorted), hence occurs in exactly two yielded pairs; with sort=True the first index is smaller; and with step=2 every source still occurs.", "quantifier": "every number of sources n, every stop and step, sort on and off", "why_tests_cant": "tests list the pairs for a few n only; coverage must hold for every n", "anchors": ["ssspy/utils/select_pair.py::sequential_pair_selector"]}
{"id": "C09", "title": "Combination pair selector enumerates every pair once", "statement": "combination_pair_selector(n) yields every unordered pair of different source indices exactly once, n(n-1)/2 pairs in all.", "quantifier": "every number of sources n", "why_tests_cant": "a counting statement over all n", "anchors": ["ssspy/utils/select_pair.py::combination_pair_selector"]}
{"id": "C10", "title": "Loss history and callback discipline", "statement": "Running an iterative method for n_iter iterations appends exactly n_iter losses (one more when initial_call is true), evaluates every callback in list order once per recorded point, and callbacks and the loss observe the state after the corresponding number of updates.", "quantifier": "every n_iter, every list of callbacks, every update rule and loss, record_loss and initial_call on or off", "why_tests_cant": "the interaction of four switches with an unbounded iteration count", "anchors": ["ssspy/bss/base.py::IterativeMethodBase"]}
{"id": "C11", "title": "Iterations compose", "statement": "Running a iterations and then b more iterations with initial_call=False produces the same final state and the same loss history as running a+b iterations at once; recording the loss never changes the iterates.", "quantifier": "every a, b, every update rule, loss and initial state", "why_tests_cant": "tests compare at most one split of one run", "anchors": ["ssspy/bss/base.py::IterativeMethodBase"]}
{"id": "C12", "title": "Softmax and log-sum-exp are exact", "statement": "softmax returns positive weights that sum to one along the axis and is unchanged when a constant is added to all scores; logsumexp equals log(sum(exp x)) and shifts by the constant; softmax(x) = exp(x - logsumexp(x)).", "quantifier": "every non-empty real score vector", "why_tests_cant": "statement about all real vectors", "anchors": ["ssspy/special/softmax.py::softmax", "ssspy/special/logsumexp.py::logsumexp"]}
{"id": "C13", "title": "to_psd projects onto floored Hermitian matrices", "statement": "to_psd returns a Hermitian matrix all of whose eigenvalues are at least the flooring constant, leaves every Hermitian matrix whose eigenvalues already meet the floor unchanged, is idempotent, and returns the matrix nearest to its input (Frobenius norm) among all Hermitian matrices above the floor.", "quantifier": "every complex square matrix, every size and floor", "why_tests_cant": "spectral statement over all matrices", "anchors": ["ssspy/special/psd.py::to_psd", "ssspy/special/flooring.py"]}
{"id": "C14", "title": "Proximal operators are proximal operators", "statement": "prox.l1, prox.l21 and prox.neg_log return the minimiser of step*penalty(z)+|z-x|^2/2 over all z; prox.neg_logdet returns the minimiser of -step*log|det Z|+||Z-X||_F^2/2.", "quantifier": "every input array and every positive step size", "why_tests_cant": "global optimality over a continuum", "anchors": ["ssspy/linalg/prox.py"]}
{"id": "C15", "title": "Cubic solver returns exactly the roots", "statement": "For every complex coefficients with non-zero leading coefficient solve_cubic returns three numbers x1,x2,x3 with A(x-x1)(x-x2)(x-x3) equal to the given cubic, so they are all its roots with multiplicity; it raises exactly when some leading coefficient is zero; cbrt(x)^3 = x.", "quantifier": "every coefficient tuple, including degenerate discriminants", "why_tests_cant": "continuum with degenerate sub-varieties", "anchors": ["ssspy/linalg/polynomial.py::solve_cubic", "ssspy/linalg/cubic.py::cbrt"]}
{"id": "C16", "title": "Generalised eigenproblem solver", "statement": "eigh(A,B,type) returns pairs satisfying A z = w B z (type 1), A B z = w z (type 2), B A z = w z (type 3) with the B-orthonormality each type promises, and raises on any other type.", "quantifier": "every Hermitian A, every positive definite B, every size", "why_tests_cant": "matrix identity over all inputs", "anchors": ["ssspy/linalg/eigh.py::eigh"]}
{"id": "C17", "title": "Geometric mean of matrices solves the Riccati equation", "statement": "gmeanmh(A,B,type) of positive definite matrices succeeds and returns a Hermitian positive definite G with G A^-1 G = B for type 1, G A G = B for type 2 and G B G = A for type 3.", "quantifier": "every pair of positive definite matrices, every size", "why_tests_cant": "matrix identity over all inputs", "anchors": ["ssspy/linalg/mean.py::gmeanmh"]}
{"id": "C18", "title": "Matrix square roots", "statement": "sqrtmh(X)^2 = X for every positive semidefinite X and the result is positive semidefinite; invsqrtmh(X) X invsqrtmh(X) = I whenever no eigenvalue is floored.", "quantifier": "every Hermitian positive (semi)definite matrix of any size", "why_tests_cant": "matrix identity over all inputs", "anchors": ["ssspy/linalg/sqrtm.py"]}
{"id": "C19", "title": "2x2 inverse", "statement": "inv2(X) X = X inv2(X) = I for every invertible 2x2 complex matrix, and inputs of any other shape are rejected.", "quantifier": "every 2x2 complex matrix", "why_tests_cant": "continuum of matrices", "anchors": ["ssspy/linalg/inv.py::inv2"]}
{"id": "C20", "title": "Whitening gives identity covariance", "statement": "whiten(X) has sample covariance equal to the identity whenever the sample covariance of X is positive definite; unsupported dimension/dtype combinations raise ValueError.", "quantifier": "every data matrix with non-singular covariance, any number of channels and frames", "why_tests_cant": "covariance identity over all data", "anchors": ["ssspy/transform/whiten.py::whiten"]}
{"id": "C21", "title": "PCA decorrelates, sorts and preserves energy", "statement": "pca(X) returns components whose covariance is diagonal with the eigenvalues in the requested order, and preserves the total energy of every frame.", "quantifier": "every data matrix, ascending or descending", "why_tests_cant": "covariance identity over all data", "anchors": ["ssspy/transform/pca.py::pca"]}
{"id": "C22", "title": "Projection back removes the scale ambiguity", "statement": "projection_back(W) is unchanged when each row of W is multiplied by any non-zero scalar, is idempotent, and permuting the rows of W permutes its output the same way.", "quantifier": "every invertible demixing matrix, every non-zero complex row scaling, every reference channel", "why_tests_cant": "invariance over a continuum of scalings", "anchors": ["ssspy/algorithm/projection_back.py::projection_back"]}
{"id": "C23", "title": "Projection back is distortion-free", "statement": "After projection back the separated signals sum, at every frame, to the reference channel of the mixture.", "quantifier": "every invertible demixing matrix, every mixture and every reference channel", "why_tests_cant": "identity over all signals", "anchors": ["ssspy/algorithm/projection_back.py::projection_back"]}
{"id": "C24", "title": "Data-driven and filter-based projection back agree", "statement": "projection_back(Y, reference=X) equals projection_back(W) applied to X whenever Y = W X, W is invertible and X has full row rank.", "quantifier": "every mixture with non-singular covariance and every invertible filter", "why_tests_cant": "identity over all data", "anchors": ["ssspy/algorithm/projection_back.py::projection_back"]}
{"id": "C25", "title": "Minimal distortion scaling is least-squares optimal", "statement": "minimal_distortion_principle multiplies each separated signal by the complex gain that minimises the squared distance to the reference channel, and its result does not depend on the scale of the separated signals.", "quantifier": "every pair of signals with non-zero separated energy, every non-zero rescaling", "why_tests_cant": "optimality over all complex gains", "anchors": ["ssspy/algorithm/minimal_distortion_principle.py::minimal_distortion_principle"]}
{"id": "C26", "title": "Reported filter and reported output agree", "statement": "After a separation call with scale restoration the returned signals equal the reported demixing filter applied to the (possibly whitened) input, and equal the scale-restored version of the signals before restoration, for every scale-restoration mode; the only exception is FastIVA / FasterIVA with the minimal distortion principle, where the reported filter yields the restored signals on the original input but the call applies it to the whitened input, so that the returned signals are not the restored ones.", "quantifier": "every input, filter and scale-restoration keyword, for the gradient, auxiliary-function and fast ICA-type separators", "why_tests_cant": "consistency of two observable results over all inputs", "anchors": ["ssspy/bss/fdica.py::FDICABase", "ssspy/bss/iva.py::IVABase", "ssspy/bss/iva.py::FastIVABase", "ssspy/bss/ilrma.py::ILRMABase"]}
{"id": "C27", "title": "Permutation solvers only permute sources inside each bin", "statement": "correlation_based_permutation_solver and score_based_permutation_solver return, for every frequency bin, a reordering of that bin's sources, and apply the very same reordering to every additional argument; the score-based solver raises when global_iter is 0 while local_iter is positive, and for multi_centroids=True.", "quantifier": "every spectrogram, every number of bins, sources, frames, every iteration setting and every extra argument", "why_tests_cant": "tests check one aligned example; multiset preservation must hold on all inputs and all tie patterns", "anchors": ["ssspy/algorithm/permutation_alignment.py"]}
{"id": "C28", "title": "Correlation-based alignment is greedily optimal", "statement": "Each bin processed by correlation_based_permutation_solver receives a permutation whose total correlation with the accumulated reference is the largest among all permutations, and the first processed bin is left as it is.", "quantifier": "every spectrogram and every processing order", "why_tests_cant": "maximum over all permutations of an unbounded number of sources", "anchors": ["ssspy/algorithm/permutation_alignment.py::correlation_based_permutation_solver"]}
{"id": "C29", "title": "overwrite controls mutation of caller arrays", "statement": "With overwrite=False the permutation solvers and the IP1, IP2 and VCD updates leave the caller's arrays untouched and return new arrays. With overwrite=True correlation_based_permutation_solver and the IP1, IP2 and VCD updates return the caller's own arrays holding the new values and change nothing else (a raising IP1 call leaves the rows updated so far); score_based_permutation_solver permutes the additional arguments in place but does not overwrite the sequence itself.", "quantifier": "every input and every setting", "why_tests_cant": "aliasing statement over all call histories", "anchors": ["ssspy/algorithm/permutation_alignment.py", "ssspy/bss/_update_spatial_model.py::update_by_ip1", "ssspy/bss/_update_spatial_model.py::update_by_ip2", "ssspy/bss/_update_spatial_model.py::update_by_block_decomposition_vcd"]}
{"id": "C30", "title": "IP1 normalises and decorrelates the updated row", "statement": "After update_by_ip1 every updated demixing row w_n satisfies w_n^H U_n w_n = 1 when it is updated and is U_n-orthogonal to all other rows present at that moment.", "quantifier": "every positive definite weighted covariance and invertible filter, any number of sources", "why_tests_cant": "matrix identity over all inputs", "anchors": ["ssspy/bss/_update_spatial_model.py::update_by_ip1"]}
{"id": "C31", "title": "IP1 never increases the auxiliary objective", "statement": "One update_by_ip1 sweep never increases sum_n w_n^H U_n w_n - 2 log|det W|, keeps W invertible, and each row update is the global minimiser over that row.", "quantifier": "every positive definite weighted covariance and invertible filter, any number of sources", "why_tests_cant": "inequality over all inputs", "anchors": ["ssspy/bss/_update_spatial_model.py::update_by_ip1"]}
{"id": "C32", "title": "IP2 never increases the auxiliary objective", "statement": "One update_by_ip2 sweep with any pair selector never increases sum_n w_n^H U_n w_n - 2 log|det W| and keeps W invertible.", "quantifier": "every positive definite weighted covariances, every invertible filter, every sequence of pairs", "why_tests_cant": "inequality over all inputs and all pair schedules", "anchors": ["ssspy/bss/_update_spatial_model.py::update_by_ip2", "ssspy/bss/_update_spatial_model.py::update_by_ip2_one_pair"]}
{"id": "C33", "title": "ISS1 makes the best single-source demixing updates", "statement": "update_by_iss1 multiplies the separated signals by an invertible matrix per bin and never increases the weighted-power objective of the corresponding demixing matrix; the step of each source is the best among all invertible matrices that subtract multiples of that source from the sources.", "quantifier": "every separated signal and positive weight", "why_tests_cant": "inequality over all inputs", "anchors": ["ssspy/bss/_update_spatial_model.py::update_by_iss1"]}
{"id": "C34", "title": "ISS2 makes the best pairwise demixing updates", "statement": "update_by_iss2 multiplies the separated signals by an invertible matrix per bin, for ascending and descending pairs, and never increases the weighted-power objective; the step of each pair is the best among all invertible matrices that add combinations of the two sources of the pair.", "quantifier": "every separated signal, positive weight and pair schedule", "why_tests_cant": "inequality over all inputs and schedules", "anchors": ["ssspy/bss/_update_spatial_model.py::update_by_iss2"]}
{"id": "C35", "title": "VCD update never increases the block objective", "statement": "update_by_block_decomposition_vcd never increases the quadratic-minus-logdet objective of a block and each step is the global minimiser over the updated vector.", "quantifier": "every positive definite block weighted covariance and invertible filter", "why_tests_cant": "inequality over all inputs", "anchors": ["ssspy/bss/_update_spatial_model.py::update_by_block_decomposition_vcd"]}
{"id": "C36", "title": "Auxiliary-function IVA decreases its recorded loss", "statement": "The loss list recorded by AuxIVA, AuxLaplaceIVA and AuxGaussIVA with IP1, IP2, ISS1 and ISS2 is non-increasing over every number of iterations as long as flooring does not act. With ISS the loss is the one computed from the separated signals alone.", "quantifier": "every mixture for which the weighted covariances stay non-singular, every number of iterations, bins, frames and sources", "why_tests_cant": "monotonicity over all inputs and all iteration counts", "anchors": ["ssspy/bss/iva.py::AuxIVA", "ssspy/bss/iva.py::AuxLaplaceIVA", "ssspy/bss/iva.py::AuxGaussIVA", "ssspy/bss/_update_spatial_model.py::update_by_ip1"]}
{"id": "C37", "title": "Auxiliary-function FDICA decreases its recorded loss", "statement": "The loss list recorded by AuxFDICA and AuxLaplaceFDICA with IP1 or IP2 is non-increasing over every number of iterations, for every contrast function the method covers, as long as no floor is active.", "quantifier": "every mixture for which the weighted covariances stay non-singular, every number of iterations", "why_tests_cant": "monotonicity over all inputs and all iteration counts", "anchors": ["ssspy/bss/fdica.py::AuxFDICA", "ssspy/bss/fdica.py::AuxLaplaceFDICA"]}
{"id": "C38", "title": "Gaussian ILRMA decreases its recorded loss", "statement": "The loss recorded by GaussILRMA without partitioning is non-increasing over every number of iterations, for the MM updates with every positive domain parameter and for the ME updates with domain 2, combined with IP1, IP2, ISS1 or ISS2 and with any normalisation, as long as flooring never moves a value past its previous value (in particular with max_flooring from a floored start, without normalisation).", "quantifier": "every mixture, positive initial basis/activation, iteration count, domain parameter", "why_tests_cant": "monotonicity over all inputs and iteration counts", "anchors": ["ssspy/bss/ilrma.py::GaussILRMA"]}
{"id": "C39", "title": "t-ILRMA and GGD-ILRMA source updates decrease the loss", "statement": "The loss recorded by TILRMA and GGDILRMA is non-increasing over every number of iterations, for every degree of freedom > 0, every shape in (0,2] and every positive domain parameter (ME updates of TILRMA: domain 2), combined with IP1, IP2 or ISS, under the same flooring condition as GaussILRMA.", "quantifier": "every mixture, positive basis/activation, every admissible hyper-parameter", "why_tests_cant": "monotonicity over all inputs and hyper-parameters", "anchors": ["ssspy/bss/ilrma.py::TILRMA", "ssspy/bss/ilrma.py::GGDILRMA"]}
{"id": "C40", "title": "ILRMA normalisation does not change the loss and fixes the scale", "statement": "Power and projection-back normalisation in ILRMA leave the recorded loss unchanged (with projection-back only without partitioning: with it the code raises), and the output after scale restoration by projection back or minimal distortion is unchanged as well. Unless the floor is active, after every iteration with power normalisation each estimated source has mean power one over all bins and frames (all spatial algorithms, with and without partitioning), and after every iteration with projection-back normalisation the estimated sources of every bin and frame add up to the reference channel.", "quantifier": "every state with non-zero scales, every domain parameter, with and without partitioning (power)", "why_tests_cant": "identity over all states", "anchors": ["ssspy/bss/ilrma.py::ILRMABase.normalize_by_power", "ssspy/bss/ilrma.py::ILRMABase.normalize_by_projection_back"]}
{"id": "C41", "title": "NMF parameters stay positive and floored", "statement": "Without normalisation, basis and activation of ILRMA are at or above the floor after every update and stay positive; with power normalisation the floor on the basis is not kept. With partitioning the latent weights stay non-negative and sum to one over the sources after every update. In FastGaussMNMF bases and activations are at or above the floor after every update, with and without normalisation, and the spatial weights (which are not floored) stay non-negative. In GaussMNMF activations, and bases without normalisation, are at or above the floor; bases stay positive and the spatial covariances are positive definite, with trace one when they are normalised. With partitioning bases and activations are at or above the floor in both cases. In GaussIPSDTA and TIPSDTA with a positive flooring function the bases are positive definite after every update, with traces that sum to one over the blocks when they are normalised, and the activations stay non-negative; they are not floored, and in a frame that is silent in all channels and bins they become exactly zero.", "quantifier": "every number of iterations and every input", "why_tests_cant": "invariant over all histories", "anchors": ["ssspy/bss/ilrma.py::ILRMABase", "ssspy/bss/ilrma.py::GaussILRMA", "ssspy/bss/ilrma.py::TILRMA", "ssspy/bss/ilrma.py::GGDILRMA", "ssspy/bss/mnmf.py::FastGaussMNMF.update_once", "ssspy/bss/mnmf.py::GaussMNMF.update_once", "ssspy/bss/ipsdta.py::GaussIPSDTA.update_once", "ssspy/bss/ipsdta.py::TIPSDTA.update_once"]}
{"id": "C42", "title": "FastMNMF decreases its recorded loss", "statement": "The loss recorded by FastGaussMNMF (IP1 or IP2, flooring never moving a value past its previous value) is non-increasing over every number of iterations, and its normalisation leaves the loss unchanged.", "quantifier": "every mixture, number of sources and channels, positive initial parameters and iteration count", "why_tests_cant": "monotonicity over all inputs and iteration counts", "anchors": ["ssspy/bss/mnmf.py::FastGaussMNMF"]}
{"id": "C43", "title": "Multichannel Wiener outputs add up to the reference channel", "statement": "The signals returned by GaussMNMF and FastGaussMNMF sum over sources to the reference channel of the mixture at every time-frequency point where the model covariance is not floored.", "quantifier": "every mixture and every positive definite model", "why_tests_cant": "identity over all inputs", "anchors": ["ssspy/bss/mnmf.py::GaussMNMF.separate", "ssspy/bss/mnmf.py::FastGaussMNMF.separate"]}
{"id": "C44", "title": "MNMF trace normalisation", "statement": "Without partitioning, MNMF normalisation leaves the modelled covariance of every time-frequency point (hence loss and output) unchanged and makes every spatial covariance unit-trace.", "quantifier": "every parameter state with non-zero traces", "why_tests_cant": "identity over all states", "anchors": ["ssspy/bss/mnmf.py::MNMF.normalize"]}
{"id": "C45", "title": "cACGMM posteriors are probabilities and outputs add up", "statement": "The posterior of CACGMM is positive and sums to one over sources at every time-frequency point after every update, mixing weights sum to one, and the returned signals sum over sources to the reference channel.", "quantifier": "every mixture, every number of iterations, every initial parameter", "why_tests_cant": "invariant over all histories", "anchors": ["ssspy/bss/cacgmm.py::CACGMM"]}
{"id": "C46", "title": "cACGMM EM decreases its recorded loss", "statement": "With flooring inactive, the loss recorded by CACGMM is non-increasing over every number of iterations, with and without normalisation.", "quantifier": "every mixture and iteration count for which the covariances stay positive definite", "why_tests_cant": "monotonicity over all inputs", "anchors": ["ssspy/bss/cacgmm.py::CACGMM"]}
{"id": "C47", "title": "FastICA / FastIVA filters stay unitary", "statement": "After every FastICA update the demixing rows are orthonormal; after every FastIVA / FasterIVA update the per-bin filter is unitary.", "quantifier": "every input and every number of iterations for which no division by zero occurs", "why_tests_cant": "invariant over all histories", "anchors": ["ssspy/bss/ica.py::FastICA.update_once", "ssspy/bss/iva.py::FastIVA.update_once", "ssspy/bss/iva.py::FasterIVA.update_once"]}
{"id": "C48", "title": "Natural-gradient separators are equivariant", "statement": "The separated signals produced by the natural-gradient ICA, FDICA and IVA updates depend only on the current separated signals: running on A X from filter W A^-1 gives the same outputs as running on X from W, for every number of iterations.", "quantifier": "every invertible mixing change A, every input and iteration count", "why_tests_cant": "equivariance over a continuum of mixing matrices and all iteration counts", "anchors": ["ssspy/bss/ica.py::NaturalGradICA.update_once", "ssspy/bss/fdica.py::NaturalGradFDICA.update_once", "ssspy/bss/iva.py::NaturalGradIVA.update_once"]}
{"id": "C49", "title": "Calling a separator object again", "statement": "An object using a spatial algorithm that keeps a filter (IP, IP1, IP2) can be called again with any mixture of the same shape and continues from the reported filter. An object using a filter-free algorithm (ISS, ISS1, ISS2, IPA) raises on every further call unless the caller passes demix_filter.", "quantifier": "every spatial algorithm and every call history", "why_tests_cant": "history property: tests construct a fresh object per call", "anchors": ["ssspy/bss/iva.py::AuxIVA._reset", "ssspy/bss/ilrma.py::GaussILRMA._reset"]}
{"id": "C50", "title": "What the ADMM filter step computes", "statement": "The filter computed in each ADMMBSS iteration always exists and solves (q X X^H + 1)^T W = V - Y + sum_q (V_q - Y_q) X^H. It minimises the augmented Lagrangian ||W-(V-Y)||^2 + sum_q ||W X-(V_q-Y_q)||^2 over all filters exactly when W (q X X^H + 1) = (q X X^H + 1)^T W, which fails for some states. Consequently a state left unchanged by the iteration satisfies the optimality conditions of the penalised log-determinant problem when W X X^H = (X X^H)^T W, and there are states left unchanged whose filter is not a stationary point. MaskingADMMBSS is the same iteration with one penalty whose proximal operator is the mask.", "quantifier": "every mixture, every auxiliary and dual state, every number of penalties, every positive rho and non-zero relaxation", "why_tests_cant": "optimality over all states", "anchors": ["ssspy/bss/admmbss.py::ADMMBSS.update_once", "ssspy/linalg/_solve.py::solve"]}
{"id": "C51", "title": "PDS fixed points are stationary points", "statement": "If a PDSBSS iteration leaves a state unchanged, its filter is a stationary point of sum_q P_q(W X) - sum log|det W| (there are subgradients of the penalties that balance W^-H), so no direction decreases the loss at first order; conversely every stationary point whose filters have all singular values above sqrt(mu1) is part of an unchanged state. This holds for PDSIVA with its default penalty, and MaskingPDSBSS is the same iteration with one penalty whose proximal operator is the mask.", "quantifier": "every mixture, every state, all convex penalties with their proximal operators, all positive step sizes, every non-zero relaxation", "why_tests_cant": "equivalence over all states", "anchors": ["ssspy/bss/pdsbss.py::PDSBSS.update_once", "ssspy/bss/iva.py::PDSIVA", "ssspy/bss/pdsbss.py::MaskingPDSBSS.update_once"]}
{"id": "C52", "title": "Harmonic masks partition the mixture", "statement": "With at least two frequency bins and a positive attenuation the HVA mask lies in (0, 1] and its 1/attenuation powers sum to one over the sources at every bin and frame, so masking never amplifies. The mask does not change if a frame of all sources is multiplied by a common gain, and permuting the sources permutes the masks. With one bin the mask raises ValueError. The default attenuation is fixed by the number of sources of the first separated signal and is kept for later signals with another number of sources. The mask is computed from the amplitudes whose cepstrum (inverse DFT of the even extension of the centred log amplitudes) is multiplied by the squashed cepstrum; if every cepstral coefficient is zero or at least one, nothing is filtered out and the mask is the power of the ratio of squared amplitudes.", "quantifier": "every separated signal, attenuation, mask iteration count, gain and permutation", "why_tests_cant": "statement over all inputs", "anchors": ["ssspy/bss/hva.py::MaskingPDSHVA"]}
{"id": "C53", "title": "IPSDTA block partition covers every bin once", "statement": "For every number of bins and every n_blocks >= 1, the n_blocks - n_remains blocks of n_bins//n_blocks bins followed by n_remains blocks one bin larger contain every frequency bin exactly once and in order; putting the blocks back together restores the array; with n_blocks = 0 the update raises ZeroDivisionError.", "quantifier": "every number of bins and of blocks", "why_tests_cant": "arithmetic over all sizes", "anchors": ["ssspy/bss/ipsdta.py::BlockDecompositionIPSDTABase"]}
{"id": "C54", "title": "The sample data loader returns the requested recordings, or those of the first call", "statement": "The sample speech loader returns the recordings of the requested tag, convolved with the impulse responses of the requested reverberation time, if all earlier calls with the same directories and number of sources asked for the same tag and reverberation time. Otherwise the first successful call wins: later calls return, without an error, the recordings of the first tag and the impulse responses of the first reverberation time. An unknown tag or more than four sources raise AssertionError after any history. In the convolutive case sample i of a channel is the convolution of the recording, cut after max_duration, with the impulse response, and the image is as long as the cut recording.", "quantifier": "every history of loader calls on an initially empty disk, every archive contents", "why_tests_cant": "history property over caches", "anchors": ["ssspy/utils/dataset/__init__.py::download_sample_speech_data", "ssspy/utils/dataset/sisec2010.py::download", "ssspy/utils/dataset/mird.py::download"]}
{"id": "C55", "title": "LQPQM solver: what the Newton iteration converges to, and when the result is the documented minimiser", "statement": "For Hermitian positive H and z >= 0 away from the degenerate cases (v has a component along the largest eigenvalue above the floor), lqpqm2 with any positive max_iter returns without error. When the largest eigenvalue is one, the returned q is the global minimiser of q^H q - log((q+v)^H H (q+v) + z') for some z' <= z, where z - z' is at most the flooring constant unless the function warned; with enough iterations there is no warning, and for 1x1 problems (two sources) the minimiser is exact for any number of iterations. For another largest eigenvalue top it returns top times the minimiser for v/top, which is not the documented minimiser (H=4, v=2, z=4 is worse than q=0). For v=0 the result is a minimiser for 1x1 problems but not in general (H=diag(2,3,1)), because a row instead of a column of the eigenvector matrix is taken. max_iter=0 raises NameError.", "quantifier": "every number of bins and dimensions, every Hermitian H, v, z in the regular set, every eigh satisfying its contract, every number of Newton iterations", "why_tests_cant": "Global optimality is a statement over all q, and convergence is over all problem instances and iteration counts.", "anchors": ["ssspy/linalg/lqpqm.py:lqpqm2", "ssspy/linalg/lqpqm.py:solve_equation", "ssspy/linalg/lqpqm.py:_find_largest_root"]}
{"id": "C56", "title": "GaussMNMF decreases its recorded loss", "statement": "The loss recorded by GaussMNMF without partitioning is non-increasing over every number of iterations, with and without normalisation, as long as flooring does not alter the matrices involved and basis / activation flooring never moves a value past its previous value.", "quantifier": "every mixture, number of sources, channels, bins, frames, bases and iterations, every positive initial source model and positive definite spatial covariances", "why_tests_cant": "monotonicity over all inputs and iteration counts", "anchors": ["ssspy/bss/mnmf.py::GaussMNMF.update_once", "ssspy/bss/mnmf.py::GaussMNMF.compute_loss"]}
{"id": "C57", "title": "Gradient updates descend the recorded loss", "statement": "At every invertible filter, every sufficiently small positive step size of the natural-gradient ICA / FDICA / IVA update (holonomic or not) and of the plain gradient update with is_holonomic=True strictly decreases the value compute_loss returns, unless the update leaves the filter unchanged; with is_holonomic=True the filter is unchanged exactly when the loss is stationary there. Without is_holonomic the plain gradient update can increase the loss for every small step size. For GradGaussIVA and NaturalGradGaussIVA the new variance does not increase the loss, and the filter step decreases the loss for this new variance.", "quantifier": "every mixture, every invertible filter, every contrast function whose derivative at the separated signals is the score function (in particular the built-in Laplace and Gauss models where no flooring happens)", "why_tests_cant": "statement about derivatives over a continuum of filters, mixtures and source models", "anchors": ["ssspy/bss/ica.py::GradICA.update_once", "ssspy/bss/ica.py::NaturalGradICA.update_once", "ssspy/bss/fdica.py::GradFDICA.update_once", "ssspy/bss/fdica.py::NaturalGradFDICA.update_once", "ssspy/bss/iva.py::GradIVA.update_once", "ssspy/bss/iva.py::NaturalGradIVA.update_once", "ssspy/bss/iva.py::GradGaussIVA.update_once", "ssspy/bss/iva.py::NaturalGradGaussIVA.update_once"]}
{"id": "C58", "title": "Loss recording of the proximal methods", "statement": "PDSBSS / ADMMBSS constructed with a penalty and record_loss=True record n_iter+1 losses, entry k being sum_q P_q(W X) - sum log|det W| for the filter after k iterations. With the default record_loss=None nothing is recorded and the attribute loss stays None even though a penalty is given. MaskingPDSBSS / MaskingADMMBSS with a penalty and record_loss=True raise TypeError at the first loss. Without a penalty record_loss=True is rejected.", "quantifier": "every mixture, every list of penalties, every run whose updates succeed, every number of iterations", "why_tests_cant": "statement about every run and every combination of constructor arguments", "anchors": ["ssspy/bss/proxbss.py::ProxBSSBase.__init__", "ssspy/bss/proxbss.py::ProxBSSBase.compute_loss", "ssspy/bss/pdsbss.py::MaskingPDSBSS.__init__", "ssspy/bss/base.py::IterativeMethodBase.__call__"]}
{"id": "C59", "title": "GaussIPSDTA decreases its recorded loss", "statement": "The loss recorded by GaussIPSDTA is non-increasing over every number of iterations, with and without normalisation of the basis, as long as flooring does not alter the matrices involved, the activations stay positive and the singularity threshold of the VCD update only catches exact zeros.", "quantifier": "every mixture with linearly independent channels per bin, number of sources, bins, blocks (>= 1), frames, bases and iterations; every positive initial source model and invertible filter", "why_tests_cant": "monotonicity over all inputs and iteration counts", "anchors": ["ssspy/bss/ipsdta.py::GaussIPSDTA.update_once", "ssspy/bss/ipsdta.py::GaussIPSDTA.compute_loss"]}
{"id": "C60", "title": "TIPSDTA decreases its recorded loss", "statement": "The loss recorded by TIPSDTA is non-increasing over every number of iterations for every positive number of degrees of freedom, with and without normalisation, under the conditions of GaussIPSDTA.", "quantifier": "every mixture with linearly independent channels per bin, number of sources, bins, blocks (>= 1), frames, bases and iterations, every dof > 0; every positive initial source model and invertible filter", "why_tests_cant": "monotonicity over all inputs and iteration counts", "anchors": ["ssspy/bss/ipsdta.py::TIPSDTA.update_once", "ssspy/bss/ipsdta.py::TIPSDTA.compute_loss"]}
{"id": "C61", "title": "AuxIVA strictly decreases its loss and stops exactly at stationary points", "statement": "One iteration of AuxIVA with IP1 or ISS1 makes the recorded loss strictly smaller or leaves the estimate unchanged, and it leaves the estimate unchanged exactly when all directional derivatives of the loss with respect to the demixing filters vanish. With IP2 (ISS2) an iteration makes the loss strictly smaller unless the loss is already stationary in the filters of the first pair of sources (in the mixing of these two sources into the others); with two sources this is full stationarity. With IPA and two sources an iteration makes the loss strictly smaller unless the filters are a stationary point. For AuxLaplaceIVA the fixed points are those of the holonomic natural gradient update. For AuxGaussIVA the same holds for the pair of filters and variances (IP1 and ISS1; IP2, ISS2 and IPA with two sources).", "quantifier": "every mixture with linearly independent channels per bin, number of sources, bins and frames, every differentiable contrast function dominated by its parabola, every invertible filter with non-zero separated frames, as long as flooring does not alter the iteration", "why_tests_cant": "strict decrease and the exact set of fixed points over a continuum of states; a no-op or over-damped update passes monotonicity tests", "anchors": ["ssspy/bss/iva.py::AuxIVA.update_once", "ssspy/bss/iva.py::AuxIVA.compute_loss", "ssspy/bss/iva.py::AuxGaussIVA.update_once", "ssspy/bss/_update_spatial_model.py::update_by_ip1", "ssspy/bss/_update_spatial_model.py::update_by_iss1", "ssspy/bss/_update_spatial_model.py::update_by_ipa"]}
{"id": "C62", "title": "AuxFDICA strictly decreases its loss and stops exactly at stationary points", "statement": "One iteration of AuxFDICA with IP1 makes the recorded loss strictly smaller or leaves the demixing filters unchanged, and it leaves them unchanged exactly when all directional derivatives of the loss vanish. With IP2 an iteration makes the loss strictly smaller unless the loss is already stationary in the filters of the first pair. For AuxLaplaceFDICA with IP1 the fixed points are those of the holonomic natural gradient update.", "quantifier": "every mixture with linearly independent channels per bin, number of sources, bins and frames, every differentiable contrast function dominated by its parabola, every invertible filter with non-zero separated entries, as long as flooring does not alter the iteration", "why_tests_cant": "strict decrease and the exact set of fixed points over a continuum of states", "anchors": ["ssspy/bss/fdica.py::AuxFDICA.update_once", "ssspy/bss/fdica.py::AuxFDICA.compute_loss"]}
{"id": "C63", "title": "ILRMA strictly decreases its loss and stops exactly at stationary points", "statement": "One iteration of GaussILRMA, TILRMA (MM and ME source algorithms) or GGDILRMA without partitioning, with IP1 or ISS1 and any normalization, makes the recorded loss strictly smaller exactly when the current state is not stationary, i.e. when some directional derivative of the loss with respect to the bases, the activations or the demixing filters does not vanish. At a stationary state the iteration only applies the normalization, and without normalization it returns the state unchanged. With IP2 (ISS2) the loss becomes strictly smaller unless it is stationary in the bases, the activations and the filters (the mixing) of the first pair of sources. With IPA and two sources (GaussILRMA) the loss becomes strictly smaller unless the state is stationary in all parameters, for every small positive floor.", "quantifier": "every mixture with linearly independent channels per bin, number of sources, bins, frames and bases, every domain parameter p > 0, degree of freedom nu > 0, shape 0 < beta <= 2, and every state with positive bases and activations and invertible filters, as long as flooring does not alter the iteration", "why_tests_cant": "strict decrease and the exact set of fixed points over a continuum of states; an update that freezes one of the three parameter blocks, or uses a wrong exponent of the right sign, still passes monotonicity tests", "anchors": ["ssspy/bss/ilrma.py::GaussILRMA.update_once", "ssspy/bss/ilrma.py::TILRMA.update_once", "ssspy/bss/ilrma.py::GGDILRMA.update_once", "ssspy/bss/ilrma.py::ILRMABase.compute_loss"]}
{"id": "C64", "title": "FastMNMF strictly decreases its loss and stops exactly at stationary points", "statement": "One iteration of FastGaussMNMF with IP1 diagonalizer updates, with or without normalization, makes the recorded loss strictly smaller exactly when the current state is not stationary, i.e. when some directional derivative of the loss with respect to the bases, the activations, the diagonalizers or the diagonal spatial weights does not vanish. At a stationary state the iteration only applies the normalization; without normalization it returns the state unchanged.", "quantifier": "every mixture with linearly independent channels per bin and no frame silent in all bins, number of sources, channels, bins, frames and bases, every state with positive bases, activations and spatial weights and invertible diagonalizers; with flooring as long as it does not alter the iteration", "why_tests_cant": "strict decrease and the exact set of fixed points over a continuum of states; freezing one of the four parameter blocks still passes monotonicity tests", "anchors": ["ssspy/bss/mnmf.py::FastGaussMNMF.update_once", "ssspy/bss/mnmf.py::FastGaussMNMF.compute_loss"]}
{"id": "C65", "title": "CACGMM strictly decreases its loss and stops exactly at stationary points", "statement": "One iteration of CACGMM, with or without normalization, makes the recorded loss strictly smaller exactly when the current parameters are not stationary, i.e. when some directional derivative of the loss with respect to the mixing weights (along the simplex) or the covariance matrices (along Hermitian directions) does not vanish. At stationary parameters the iteration only applies the normalization; without normalization it returns the parameters unchanged.", "quantifier": "every mixture with linearly independent channels and no silent frame per bin, number of sources, channels, bins and frames, every state with positive mixing weights summing to one and positive definite covariances; with flooring as long as it does not alter the iteration", "why_tests_cant": "strict decrease and the exact set of fixed points over a continuum of states; an M-step that freezes the mixing weights or damps the covariances still passes monotonicity tests", "anchors": ["ssspy/bss/cacgmm.py::CACGMM.update_once", "ssspy/bss/cacgmm.py::CACGMM.compute_loss"]}
{"id": "C66", "title": "GaussMNMF strictly decreases its loss and stops exactly at stationary points", "statement": "One iteration of GaussMNMF without partitioning, with or without normalization, makes the recorded loss strictly smaller exactly when the current state is not stationary, i.e. when some directional derivative of the loss with respect to the bases, the activations or the spatial covariance matrices (along Hermitian directions) does not vanish. At a stationary state the iteration only applies the normalization; without normalization it returns the state unchanged.", "quantifier": "every mixture without silent bins and frames, number of sources, channels, bins, frames and bases, every state with positive bases and activations and positive definite spatial covariances for which the Riccati equation of the spatial update is non-degenerate; with flooring as long as it does not alter the iteration", "why_tests_cant": "strict decrease and the exact set of fixed points over a continuum of states; freezing one of the three parameter blocks or damping the Riccati step still passes monotonicity tests", "anchors": ["ssspy/bss/mnmf.py::GaussMNMF.update_once", "ssspy/bss/mnmf.py::GaussMNMF.compute_loss"]}
{"id": "C67", "title": "GaussIPSDTA and TIPSDTA strictly decrease their loss away from stationary points", "statement": "One iteration of GaussIPSDTA or TIPSDTA with the default VCD spatial update, with or without normalization, makes the recorded loss strictly smaller whenever some directional derivative of the loss with respect to the block bases (along Hermitian directions), the activations or the demixing filters does not vanish. If the loss does not become smaller, the iteration only applied the normalization. For GaussIPSDTA the loss becomes smaller exactly when the bases or the activations are not stationary or replacing one row of one demixing filter would make the loss smaller.", "quantifier": "every mixture with linearly independent channels per bin, number of sources, bins, blocks (also of different sizes), frames and bases, every degree of freedom > 0, every state with positive definite bases, positive activations and invertible filters; with flooring as long as it does not alter the iteration", "why_tests_cant": "strict decrease over a continuum of states; freezing a parameter block, or skipping the rows of the higher-frequency blocks, still passes monotonicity tests", "anchors": ["ssspy/bss/ipsdta.py::GaussIPSDTA.update_once", "ssspy/bss/ipsdta.py::GaussIPSDTA.compute_loss", "ssspy/bss/ipsdta.py::TIPSDTA.update_once", "ssspy/bss/ipsdta.py::TIPSDTA.compute_loss"]}
{"id": "C68", "title": "AuxIVA and GaussILRMA with IPA do not increase their loss", "statement": "AuxIVA/AuxLaplaceIVA/AuxGaussIVA and GaussILRMA (without partitioning, any normalization) with spatial_algorithm='IPA' and the default lqpqm_normalization=True: each step for one source multiplies the separated signals of every bin by an invertible matrix that differs from the identity only in the row and column of this source, and the recorded loss never increases. For two sources the step is the best one of this form, for every newton_iter >= 1 and every small positive floor (GaussILRMA: without normalization or with the default power normalization). For more sources this holds as long as the solver of the inner problem gives no warning (which is the case for enough Newton iterations) and the tolerance is small compared with the linear term of the inner problem.", "quantifier": "every number of bins and frames, every mixture with linearly independent channels per bin, every invertible initial filter, every number of iterations; two sources without further conditions except that no source is silent over all bins in a frame before an update", "why_tests_cant": "monotonicity over a continuum of mixtures and filters; the solver returns the minimiser of a rescaled problem, so a test cannot tell whether the remaining decrease is luck", "anchors": ["ssspy/bss/_update_spatial_model.py::update_by_ipa", "ssspy/bss/iva.py::AuxIVA.update_once_ipa", "ssspy/linalg/lqpqm.py::lqpqm2", "ssspy/bss/ilrma.py::GaussILRMA.update_spatial_model_ipa"]}
{"id": "C69", "title": "With partitioning only the update of the latent variables can increase the loss of ILRMA, and it can", "statement": "For GaussILRMA, TILRMA and GGDILRMA with partitioning=True, the updates of the bases, of the activations and of the filters (IP1, IP2, ISS1, ISS2; GaussILRMA also IPA with two sources) never increase the loss reported by compute_loss, and the power normalization leaves it unchanged. Updating the latent variables returns positive values that sum to one over the sources; if the bases were multiplied by the sums that the latent variables are divided by, this step would not increase the loss either. The code does not do so: there are a mixture of five linearly independent channels and a positive state with the identity as demixing filter for which one iteration of GaussILRMA (domain 2, MM) ends at a larger loss than it started from, whatever filter the spatial update chooses and for every small floor.", "quantifier": "every mixture with linearly independent channels, every positive state, every domain parameter, degree of freedom and shape the constructors accept, as long as flooring does not alter the step; the increase is an existence statement", "why_tests_cant": "tests on random initial values do not meet the states where the loss increases; the inequalities are over a continuum", "anchors": ["ssspy/bss/ilrma.py::GaussILRMA.update_latent_mm", "ssspy/bss/ilrma.py::GaussILRMA.update_source_model", "ssspy/bss/ilrma.py::TILRMA.update_source_model", "ssspy/bss/ilrma.py::GGDILRMA.update_source_model", "ssspy/bss/ilrma.py::ILRMABase.compute_loss"]}
{"id": "C70", "title": "An endless run of AuxIVA or AuxFDICA converges to stationary points of its loss", "statement": "If AuxIVA or AuxFDICA with a contrast function that grows at least linearly (AuxLaplaceIVA, AuxLaplaceFDICA) is iterated without end, the recorded losses converge, the demixing filters stay bounded and so have accumulation points, every accumulation point is an invertible filter, and every accumulation point at which no source is silent is a stationary point of the loss. This holds for IP1 and ISS1 with any number of sources and for IP2 and ISS2 with two sources; for ISS it is a statement about the separated signals. For AuxGaussIVA with IP1 every invertible accumulation point of the filters at which no source is silent, with the variances of its signals, is a stationary point of the loss.", "quantifier": "every mixture with linearly independent channels, every invertible initial filter, every contrast function with a continuous derivative that the method covers, every infinite run in which no iterate has a silent source and flooring is inactive", "why_tests_cant": "a test runs finitely many iterations; the claim is about the limit of an infinite run", "anchors": ["ssspy/bss/iva.py::AuxIVA.update_once_ip1", "ssspy/bss/iva.py::AuxIVA.update_once_ip2", "ssspy/bss/iva.py::AuxIVA.update_once_iss1", "ssspy/bss/iva.py::AuxIVA.update_once_iss2", "ssspy/bss/iva.py::AuxGaussIVA.update_once", "ssspy/bss/fdica.py::AuxFDICA.update_once_ip1", "ssspy/bss/fdica.py::AuxFDICA.update_once_ip2"]}
{"id": "C71", "title": "Separators with a demixing filter do not see an invertible remixing of the channels", "statement": "If the channels of every bin are remixed by an invertible matrix A and the initial demixing filter is multiplied by its inverse from the right, then after every number of iterations AuxIVA/AuxGaussIVA and AuxFDICA (IP1, IP2), GaussILRMA, TILRMA, GGDILRMA (IP1, IP2; no normalization or power normalization; with and without partitioning), FastGaussMNMF, GaussIPSDTA and TIPSDTA (any number of blocks) hold the old filter times the inverse of A, so the same separated signals, the same bases and activations; they raise an exception for one recording exactly if they do for the other, and where the filters are invertible the recorded loss differs by a constant that does not depend on the iteration.", "quantifier": "every recording, every invertible remixing per bin, every initial filter and source model, every number of iterations, every flooring function, every contrast function; flooring included", "why_tests_cant": "a relation between two complete runs on all recordings and all remixings; floating point equality fails in a test and the tolerance hides errors", "anchors": ["ssspy/bss/iva.py::AuxIVA.update_once_ip1", "ssspy/bss/iva.py::AuxIVA.update_once_ip2", "ssspy/bss/fdica.py::AuxFDICA.update_once_ip1", "ssspy/bss/ilrma.py::GaussILRMA.update_once", "ssspy/bss/mnmf.py::FastGaussMNMF.update_once", "ssspy/bss/_update_spatial_model.py::update_by_ip1", "ssspy/bss/_update_spatial_model.py::update_by_ip2_one_pair", "ssspy/bss/ipsdta.py::GaussIPSDTA.update_once", "ssspy/bss/ipsdta.py::TIPSDTA.update_once", "ssspy/bss/_update_spatial_model.py::update_by_block_decomposition_vcd"]}
{"id": "C72", "title": "The level of the recording does not influence the separation", "statement": "AuxLaplaceIVA and AuxGaussIVA (IP1, ISS1) with flooring_fn=None and scale restoration (projection back or minimal distortion principle): if the recording is multiplied in every bin by a complex gain of the same absolute value for all bins, the returned spectrogram is that of the original recording multiplied by these gains, the returned demixing filter is the same, and the call raises an exception exactly if it does for the original recording. For AuxLaplaceFDICA with IP1, with every setting of permutation_alignment, every bin may have its own gain.", "quantifier": "every recording, every nonzero gain, every initial filter, every number of iterations; for AuxLaplaceIVA with IP1 and ISS1 and AuxGaussIVA with IP1 complete calls, of a new object or of one that has been called before", "why_tests_cant": "a relation between two complete runs over a continuum of recordings and gains; the iterates of both runs differ, only the final outputs agree", "anchors": ["ssspy/bss/iva.py::AuxIVA.__call__", "ssspy/bss/iva.py::AuxLaplaceIVA", "ssspy/bss/iva.py::AuxGaussIVA", "ssspy/bss/iva.py::IVABase.restore_scale", "ssspy/bss/fdica.py::AuxLaplaceFDICA", "ssspy/bss/fdica.py::FDICABase.solve_permutation", "ssspy/bss/iva.py::AuxGaussIVA.update_once"]}
{"id": "C73", "title": "Only the collection of frames matters, not their order nor how often the recording is repeated", "statement": "If the frames of a recording are put in another order, or the recording is played any number of times in a row, or both, then AuxIVA, AuxGaussIVA, AuxFDICA, gradient and natural gradient IVA/FDICA, FastIVA, FasterIVA, ILRMA (with and without partitioning, all normalizations; all with every spatial algorithm they offer, IP, ISS or IPA), FastGaussMNMF, GaussIPSDTA, TIPSDTA and cACGMM started from corresponding states compute the same demixing filters, bases, latent variables and mixture parameters after every number of iterations, the same recorded losses, and signals, variances, activations and posteriors that correspond frame by frame; for GaussMNMF (with and without partitioning) this holds for every reordering. The scale restoration at the end of the call keeps this correspondence, and an exception is raised in one case exactly if it is in the other.", "quantifier": "every recording, every reordering, every number of repetitions, every initial state, every number of iterations, every flooring function", "why_tests_cant": "a relation between complete runs over all recordings, reorderings and repetitions; summation order changes the floating point result in a test", "anchors": ["ssspy/bss/iva.py::AuxIVA", "ssspy/bss/iva.py::AuxGaussIVA", "ssspy/bss/fdica.py::AuxFDICA", "ssspy/bss/iva.py::NaturalGradIVA", "ssspy/bss/ilrma.py::ILRMABase", "ssspy/bss/mnmf.py::FastGaussMNMF.update_once", "ssspy/bss/cacgmm.py::CACGMM.update_once", "ssspy/bss/mnmf.py::GaussMNMF.update_once", "ssspy/bss/ipsdta.py::GaussIPSDTA.update_once", "ssspy/bss/ipsdta.py::TIPSDTA.update_once", "ssspy/bss/iva.py::GradIVA", "ssspy/bss/iva.py::FastIVA", "ssspy/bss/iva.py::FasterIVA"]}
{"id": "C74", "title": "Where FastICA and FastIVA stop", "statement": "FastICA: for orthonormal filters for which an update succeeds, the update returns the same filters up to signs exactly if for every output the recorded loss is stationary with respect to all changes of that filter orthogonal to the filters of that and the previous outputs; this holds in particular if the score of every output is uncorrelated with the later outputs. FastIVA: a unitary filter returned unchanged by an update is a stationary point of the recorded loss among the unitary filters; conversely a stationary point is returned unchanged where the filter before the orthonormalisation has positive real part relative to the old one; separated outputs are kept up to signs. On whitened data neither method sees a quadratic term of the contrast function.", "quantifier": "every recording, every contrast function differentiable at the observed values, every orthonormal filter, every LAPACK implementation meeting its specification", "why_tests_cant": "fixed points are exact events over a continuum of filters; a run that converges shows neither that the limit is stationary nor that all stationary points are kept", "anchors": ["ssspy/bss/ica.py::FastICA.update_once", "ssspy/bss/ica.py::FastICABase.compute_loss", "ssspy/bss/iva.py::FastIVA.update_once", "ssspy/bss/iva.py::FastIVABase.compute_loss"]}
{"id": "C75", "title": "FasterIVA maximises the weighted power and can undo a separation", "statement": "Before the orthonormalisation an update of FasterIVA gives every output the unit-norm filter with the largest power under the weights of that output. As a consequence the expected monotone behaviour fails: there are whitened, perfectly separated signals for which one update starting from the separating filter mixes two outputs again and increases the recorded loss with the documented Laplace contrast.", "quantifier": "first part: every recording, contrast, filter; second part: an existence statement that holds for every LAPACK implementation and every flooring function that leaves values from 2/5 on alone", "why_tests_cant": "the first part is an optimality statement over all unit filters; the second depends on exact ties between outputs that floating point tests do not hit", "anchors": ["ssspy/bss/iva.py::FasterIVA.update_once", "ssspy/bss/iva.py::FastIVABase.compute_loss"]}
{"id": "C76", "title": "Endless runs of ILRMA and FastMNMF can only settle at stationary points of the loss", "statement": "If GaussILRMA, TILRMA (MM and ME source algorithms) or GGDILRMA without partitioning is iterated without end, with IP1 or ISS1 (any number of sources) or IP2 or ISS2 (two sources) and any normalization, then the recorded losses never increase, and whenever some of the iterates (filters or separated signals, bases and activations together) come arbitrarily close to a state with invertible filters, positive bases and activations and no vanishing output, all directional derivatives of the loss vanish at that state. The same holds for FastGaussMNMF with IP1, with or without normalization, for accumulation points with invertible diagonalizers and positive parameters; without flooring, every endless run of FastGaussMNMF on a mixture with linearly independent channels and no frame that is silent in all bins is covered.", "quantifier": "every mixture with linearly independent channels, every initial state with invertible filters and positive parameters, every domain, degree of freedom and shape parameter, every normalization, every infinite run in which flooring is inactive, every accumulation point", "why_tests_cant": "a test runs finitely many iterations and cannot tell slow progress from convergence to a point that is not stationary; the claim is about all limits of infinite runs", "anchors": ["ssspy/bss/ilrma.py::GaussILRMA.update_once", "ssspy/bss/ilrma.py::TILRMA.update_once", "ssspy/bss/ilrma.py::GGDILRMA.update_once", "ssspy/bss/mnmf.py::FastGaussMNMF.update_once"]}
{"id": "C77", "title": "Endless runs of CACGMM and GaussMNMF can only settle at stationary points of the loss", "statement": "If CACGMM is iterated without end, the recorded losses never increase, and whenever some of the iterates come arbitrarily close to a state with positive mixing weights and positive definite covariances, all directional derivatives of the loss (along directions that keep the weights of each bin summing to one) vanish at that state; without flooring every mixture with linearly independent channels and no silent frame and every positive initial state is covered. The same holds for GaussMNMF, with or without normalization, for accumulation points with positive bases and activations and positive definite spatial covariances at which the inversely filtered frames span the channels.", "quantifier": "every mixture with linearly independent channels (CACGMM) or positive semidefinite instantaneous covariances (GaussMNMF) and no silent bin or frame, every positive initial state, every infinite run in which flooring is inactive, every accumulation point", "why_tests_cant": "a test runs finitely many iterations and cannot tell slow progress from convergence to a point that is not stationary; the claim is about all limits of infinite runs", "anchors": ["ssspy/bss/cacgmm.py::CACGMM.update_once", "ssspy/bss/mnmf.py::GaussMNMF.update_once"]}
{"id": "C78", "title": "GaussMNMF with partitioning: what each update guarantees and where the loss can rise", "statement": "With partitioning=True, update_basis, update_activation and update_spatial of GaussMNMF never increase the loss (flooring inactive). update_latent returns latent variables that sum to one over the sources; the loss would not increase if the bases were multiplied by the sums by which the latent variables are divided, but the code does not do that. Without flooring no iteration of a run fails, all parameters stay positive and, with normalization, all spatial covariances have unit trace. One iteration can increase the loss: with normalization=True because the traces divided out of the spatial covariances are not put back anywhere, and with normalization=False because of the renormalised latent variables.", "quantifier": "every mixture with positive (semi)definite instantaneous covariances, number of sources, channels, bins, frames, bases and iterations, every positive initial state; the increases are exhibited for every implementation of the eigenvalue routines", "why_tests_cant": "monotonicity of single updates over all inputs, and that an increase is due to the update rule rather than to rounding, cannot be settled by running examples", "anchors": ["ssspy/bss/mnmf.py::GaussMNMF.update_once", "ssspy/bss/mnmf.py::GaussMNMF.update_basis", "ssspy/bss/mnmf.py::GaussMNMF.update_activation", "ssspy/bss/mnmf.py::GaussMNMF.update_spatial", "ssspy/bss/mnmf.py::GaussMNMF.update_latent", "ssspy/bss/mnmf.py::MNMF.normalize"]}
{"id": "C79", "title": "Which eigenvectors or singular vectors LAPACK returns does not influence the results", "statement": "numpy.linalg.eigh, svd and cholesky may return any of many correct factorisations. to_psd returns the same matrix for all of them (every input, every flooring function); so do sqrtmh and invsqrtmh of Hermitian matrices, gmeanmh of positive definite matrices for every type, prox.neg_logdet of invertible matrices and the orthonormalisation of FastIVA for linearly independent directions. Consequently a call of CACGMM, an update, loss or output of GaussMNMF (with or without partitioning) and of GaussIPSDTA with a positive flooring function, of TIPSDTA, and of FastGaussMNMF with IP1 are the same on every correct LAPACK. prox.neg_logdet of a singular matrix is not: two correct decompositions of the zero matrix give 1 and -1.", "quantifier": "every pair of correct implementations of eigh, svd and cholesky, every input, size, flooring function and state as stated", "why_tests_cant": "a test runs on one LAPACK build; the claim compares all possible choices of eigenvectors, including those of repeated eigenvalues", "anchors": ["ssspy/special/psd.py::to_psd", "ssspy/linalg/sqrtm.py::sqrtmh", "ssspy/linalg/sqrtm.py::invsqrtmh", "ssspy/linalg/mean.py::gmeanmh", "ssspy/linalg/prox.py::neg_logdet", "ssspy/bss/cacgmm.py::CACGMM", "ssspy/bss/mnmf.py::GaussMNMF.update_once", "ssspy/bss/ipsdta.py::GaussIPSDTA.update_once", "ssspy/bss/ipsdta.py::TIPSDTA.update_once", "ssspy/bss/iva.py::FastIVA.update_once"]}
{"id": "C80", "title": "Eigenvector choices cancel in pairwise updates and in whitening, except at ties", "statement": "IP2 and ISS2 compute generalised eigenvectors and the fast methods whiten with eigh; both are only defined up to phases. For AuxIVA, AuxGaussIVA (IP2 and ISS2), AuxFDICA (IP2), ILRMA (IP2 and ISS2, with and without partitioning) and FastGaussMNMF (IP2), two correct LAPACKs give demixing filters or outputs that differ only by unit factors per source and frequency bin after any number of iterations; bases, activations, variances and recorded losses are equal, and projection back returns the same signals. The condition is that at every visited state the weighted covariances are positive definite and the pair's two covariances are not proportional. Two whitenings of the same data differ by a unitary matrix; if the covariance has distinct eigenvalues they, and the results of PCA, differ by unit factors per channel only. Then FastICA (odd score) returns the same sources up to sign, and FastIVA and FasterIVA return the same sources up to phase with the same losses and the same projection-back output. At a tie this fails: for a recording whose two weighted covariances are both the identity, one AuxIVA-IP2 iteration yields different losses and different projection-back outputs on two correct LAPACKs.", "quantifier": "every pair of correct implementations of eigh, svd and cholesky, every mixture, size, flooring function, contrast, number of iterations and sequence of pairs meeting the stated conditions; the tie is exhibited for every flooring function that keeps 1 and 2", "why_tests_cant": "a test runs on one LAPACK build and cannot compare the choices other builds may make", "anchors": ["ssspy/bss/_update_spatial_model.py::update_by_ip2", "ssspy/bss/_update_spatial_model.py::update_by_iss2", "ssspy/bss/iva.py::AuxIVA.update_once", "ssspy/bss/iva.py::FastIVA.update_once", "ssspy/bss/iva.py::FasterIVA.update_once", "ssspy/bss/fdica.py::AuxFDICA.update_once", "ssspy/bss/ilrma.py::ILRMABase", "ssspy/bss/mnmf.py::FastGaussMNMF.update_diagonalizer", "ssspy/transform/whiten.py::whiten", "ssspy/transform/pca.py::pca", "ssspy/bss/ica.py::FastICA.update_once"]}
{"id": "C81", "title": "What the score-based permutation solver optimises", "statement": "score_based_permutation_solver reorders, in every global step, each bin so that a score against the mean over the bins of the standardised sequences is largest, and in every local step one bin so that the sum of the scores against its neighbouring and harmonic bins is largest; a bin whose order is already best is left alone. Changing the level or offset of any source in any bin does not change the chosen permutations. When all references have the same spread, a call with one global step maximises the total correlation of every bin with the references. When they do not, the score is not made of correlation coefficients, since correlations with the other references are divided by the spread of the own reference: in an exhibited recording the solver exchanges the two sources of a bin although that lowers the score of the cited method.", "quantifier": "every number of bins, sources and frames, every sequence and additional arguments, every number of global and local iterations, every flooring function", "why_tests_cant": "optimality over all permutations and invariance over all inputs cannot be tested by examples", "anchors": ["ssspy/algorithm/permutation_alignment.py::score_based_permutation_solver"]}
{"id": "C82", "title": "Which flooring function a call uses", "statement": "A function passed as flooring_fn to update_once of AuxIVA (IP1, IP2) or of ILRMA is used everywhere in that update; with the default \"self\" the function given to the constructor is used, None there meaning the identity. Other strings and objects that cannot be called are refused with AssertionError. Although the documentation of update_once says that flooring_fn=None means the identity, it raises AssertionError in every state. max_flooring returns the smallest number that is at least its input and at least eps; add_flooring with positive eps returns more than its input and preserves strict order.", "quantifier": "every constructor argument, call argument, state, algorithm, normalization and number", "why_tests_cant": "that no code path falls back to another flooring function holds for all functions and states, of which a test samples a few", "anchors": ["ssspy/utils/flooring.py::choose_flooring_fn", "ssspy/bss/ilrma.py::GaussILRMA.update_once", "ssspy/bss/iva.py::AuxIVA.update_once", "ssspy/special/flooring.py::max_flooring", "ssspy/special/flooring.py::add_flooring"]}
{"id": "C83", "title": "A phase common to all channels does not matter", "statement": "If every time-frequency point of a recording is multiplied by a complex number of modulus one that may differ between bins and frames but is the same for all channels (a common clock offset, a shifted analysis window), then AuxIVA and AuxGaussIVA (IP1, IP2, ISS1, ISS2, IPA), AuxFDICA, natural gradient and gradient IVA, FastIVA, FasterIVA, ILRMA (with and without partitioning, all normalizations, filter and signal based), FastGaussMNMF, GaussMNMF and cACGMM compute the same demixing filters, bases, activations, latent variables, spatial covariances, posteriors and mixture parameters after every number of iterations and record the same losses, and the separated signals, before and after restoring the scale, are the former ones multiplied by the same numbers. An exception is raised in one case exactly if it is in the other. The instantaneous covariance GaussMNMF uses is the outer product of the observation with its conjugate, rescaled, plus a multiple of the identity.", "quantifier": "every recording, every array of unit-modulus factors, every initial state, every number of iterations, every flooring function and every choice of eigenvectors", "why_tests_cant": "a relation between complete runs over all recordings and all phases; in floating point a test sees it only up to rounding", "anchors": ["ssspy/bss/iva.py::AuxIVA", "ssspy/bss/iva.py::AuxGaussIVA", "ssspy/bss/fdica.py::AuxFDICA", "ssspy/bss/iva.py::NaturalGradIVA", "ssspy/bss/iva.py::FastIVA.update_once", "ssspy/bss/iva.py::FasterIVA.update_once", "ssspy/bss/ilrma.py::ILRMABase", "ssspy/bss/mnmf.py::FastGaussMNMF.separate", "ssspy/bss/mnmf.py::GaussMNMF.separate", "ssspy/bss/mnmf.py::GaussMNMF.update_once", "ssspy/bss/cacgmm.py::CACGMM.update_once"]}
{"id": "C84", "title": "FDICA's permutation alignment reorders sources and does nothing else", "statement": "With permutation_alignment=True (or the string 'spectrogram_correlation') an FDICA call returns exactly the signals and demixing filters it would return without alignment, with the sources of every bin in another order: the bin with the least correlated sources keeps its order and no other bin fits better to the bins before it in another order. The value of the loss is not changed by this. False and the empty string switch the alignment off. Any other string raises NotImplementedError whatever the data, and only after all iterations. If no two orders fit equally well, the order the sources have in the initial demixing filters, which may differ from bin to bin, does not matter to natural gradient FDICA: the result is the same up to one order common to all bins.", "quantifier": "every recording with at least one bin, every demixing filter, every number of iterations, every flooring function, every way argsort breaks ties, every scale restoration option (including invalid ones)", "why_tests_cant": "quantifies over all recordings and over all per-bin orders of the sources; a test sees a few orders of one recording", "anchors": ["ssspy/bss/fdica.py::FDICABase.solve_permutation", "ssspy/bss/fdica.py::FDICABase.solve_permutation_by_correlation", "ssspy/bss/fdica.py::GradFDICABase.__call__", "ssspy/bss/fdica.py::AuxFDICA.__call__", "ssspy/bss/fdica.py::NaturalGradFDICA.update_once", "ssspy/algorithm/permutation_alignment.py::correlation_based_permutation_solver"]}
{"id": "C85", "title": "What a cACGMM call does with its options: initial parameters, alignment, keywords", "statement": "A CACGMM call is expectation-maximisation on freshly drawn parameters followed by a reordering of the sources of every bin, one order for mixing weights, covariances and posterior. With permutation_alignment True or 'posterior_score' the posteriors are aligned by score, with 'amplitude_score' the magnitudes of the separated signals, with 'amplitude_correlation' the separated signals by correlation; False and '' leave the order alone. If the random numbers are positive, the initial weights sum to one and the initial covariances are positive definite with trace one, and every call with one of these options returns, for every recording, a positive posterior that sums to one and signals that sum to the reference channel. If a random number drawn for a covariance is zero, the call raises LinAlgError. Keywords of the constructor: global_iter and local_iter with the score-based options, none otherwise. The constructor accepts but every call runs all iterations and then fails with: 'posterior_correlation' (AssertionError), any unknown string (NotImplementedError), global_iter=0 with local_iter >= 1 (UnboundLocalError). A second call does not continue the first.", "quantifier": "every recording with at least one bin, channel and frame, every state of the random number generator, every number of iterations, every option value and set of keywords", "why_tests_cant": "the result of a call depends on random numbers and on a search over all orders; tests run a few options on one recording and one seed", "anchors": ["ssspy/bss/cacgmm.py::CACGMM.__init__", "ssspy/bss/cacgmm.py::CACGMM.__call__", "ssspy/bss/cacgmm.py::CACGMMBase._init_parameters", "ssspy/bss/cacgmm.py::CACGMMBase.solve_permutation", "ssspy/bss/cacgmm.py::CACGMMBase.solve_permutation_by_score", "ssspy/bss/cacgmm.py::CACGMMBase.solve_permutation_by_correlation"]}
{"id": "C86", "title": "ILRMA calls: initial values, resuming, and what scale restoration does to a resumed run", "statement": "The first call of a GaussILRMA, TILRMA or GGDILRMA object starts from the identity filter (for ISS: the mixture) and the floored random numbers; keyword arguments and the attributes of an earlier call take precedence and are used as they are. If the random numbers are positive, the call meets the conditions of the descent theorems: it returns n_iter+1 losses that never increase, the first being the loss of the initial values, and with scale restoration by projection back an output that is the reported filter applied to the mixture and that sums to the reference channel. A second call with initial_call=False continues exactly, whatever the generator would draw, if scale restoration is off, or if normalization and scale restoration are both projection back; two calls then leave the same object as one call with all iterations. With the default scale restoration it does not: the filter is rescaled but the source model is not. For GaussILRMA with IP1 the loss at the start of the second call is the last loss of the first plus m - 1 - log m for every source and bin, m being the mean power of the returned signal relative to the reported variance; it is never lower, equal only if every m is one, and there are calls where it is higher. The floored initial latent variables of a partitioned object sum to at least one, at most to one plus n_sources*eps, and not always to one. basis=None or activation=None is reported (AttributeError), never replaced by random numbers.", "quantifier": "every recording, every number of sources, bins, frames, bases and iterations, every state of the random number generator, every source model, spatial algorithm, normalization and flooring function", "why_tests_cant": "tests run one call of a few iterations from one seed; whether two calls equal one, and where the loss jumps, depends on all options and data", "anchors": ["ssspy/bss/ilrma.py::GaussILRMA.__call__", "ssspy/bss/ilrma.py::TILRMA.__call__", "ssspy/bss/ilrma.py::GGDILRMA.__call__", "ssspy/bss/ilrma.py::ILRMABase._reset", "ssspy/bss/ilrma.py::ILRMABase._init_nmf", "ssspy/bss/base.py::IterativeMethodBase.__call__"]}
{"id": "C87", "title": "MNMF calls always return with a positive flooring function, and resume exactly", "statement": "With a flooring function whose values are positive (the default is), a GaussMNMF call, partitioned or not, returns for every recording, even a silent one, every drawn initial value and every number of iterations: no solve, inverse or geometric mean fails and no denominator of the basis, activation or latent updates is zero. Afterwards the source parameters are positive, the spatial covariances positive definite and, with normalization, of unit trace; partitioned latent variables sum to one after at least one iteration; the loss list has grown by n_iter, plus one if initial_call. The same holds for FastGaussMNMF with IP1 or IP2 whenever the channels are linearly independent in every bin, the diagonalisers staying invertible; without flooring, if also no frame is silent and the drawn numbers are positive, its recorded losses never increase and its outputs sum to the reference channel. After a successful call of any of them, another call with initial_call=False gives exactly what one call with all the iterations gives.", "quantifier": "every recording, every number of sources, channels, bins, frames, bases and iterations, every state of the random number generator, every positive flooring function, both settings of normalization, any positive parameters passed by keyword", "why_tests_cant": "tests run one seed on one recording; failures of solve or sqrt only show on degenerate recordings or after many iterations", "anchors": ["ssspy/bss/mnmf.py::MNMFBase.__call__", "ssspy/bss/mnmf.py::MNMFBase._reset", "ssspy/bss/mnmf.py::MNMFBase._init_nmf", "ssspy/bss/mnmf.py::GaussMNMF.update_once", "ssspy/bss/mnmf.py::GaussMNMF.separate", "ssspy/bss/mnmf.py::FastGaussMNMF.update_once", "ssspy/bss/mnmf.py::FastGaussMNMF.separate", "ssspy/special/psd.py::to_psd"]}
{"id": "C88", "title": "ILRMA, AuxIVA and AuxFDICA calls always return with a positive flooring function", "statement": "With a flooring function whose values are positive (the default is), a call of GaussILRMA, TILRMA or GGDILRMA (partitioned or not; IP1, IP2, ISS1 or ISS2; normalization off or power), of AuxIVA (IP1, IP2, ISS1, ISS2) or of AuxFDICA (IP1, IP2, with or without alignment) returns for every recording whose channels are linearly independent in every bin, whatever silent frames or bins it has for a source, whatever numbers are drawn, for every number of iterations and every existing scale restoration option: no solve or eigendecomposition fails. The outputs are the recording filtered with the reported filter, the loss list has grown by n_iter, plus one if initial_call, and no denominator of the source model updates is zero. The contrast derivative has to be positive. Two settings are exceptions: ILRMA with normalization=\"projection_back\" on a recording whose channels never sound together silences every source but the reference after one iteration and then scale restoration raises; AuxGaussIVA does not floor its variance, so a silent frame gives 0/0 in its weights.", "quantifier": "every recording with linearly independent channels, every number of channels, bins, frames, bases and iterations, every state of the random number generator, every positive flooring function, every list of pairs, every invertible filter passed by keyword", "why_tests_cant": "tests run one seed on one recording; a singular system only shows on special recordings or after many iterations", "anchors": ["ssspy/bss/ilrma.py::ILRMABase.__call__", "ssspy/bss/ilrma.py::GaussILRMA.update_once", "ssspy/bss/ilrma.py::TILRMA.update_once", "ssspy/bss/ilrma.py::GGDILRMA.update_once", "ssspy/bss/ilrma.py::ILRMABase.normalize_by_projection_back", "ssspy/bss/iva.py::AuxIVA.__call__", "ssspy/bss/iva.py::AuxGaussIVA.update_once", "ssspy/bss/fdica.py::AuxFDICA.__call__", "ssspy/bss/_update_spatial_model.py::update_by_ip1", "ssspy/bss/_update_spatial_model.py::update_by_ip2", "ssspy/bss/_update_spatial_model.py::update_by_iss1", "ssspy/bss/_update_spatial_model.py::update_by_iss2"]}
{"id": "C89", "title": "What AuxIVA, AuxGaussIVA and AuxFDICA calls return and how they resume", "statement": "A first call with projection back on a recording whose channels are linearly independent in every bin, in a run where no source is silent in a whole frame and flooring does not act, succeeds; its loss list has n_iter + 1 entries, begins with the loss of the unprocessed recording and never increases; the filter it reports produces its output, and the outputs sum to the reference channel (AuxIVA with IP1, IP2, ISS1, ISS2; AuxGaussIVA with IP1, IP2; AuxFDICA with IP1, IP2, with or without alignment). Without scale restoration (and alignment) a second call with initial_call=False continues exactly as one call with all the iterations would, exceptions and losses included; with ISS the caller has to hand over a filter that produces the previous output. AuxGaussIVA sets its variance back to one at every call: with at least one further iteration and initial_call=False that is invisible, but with initial_call=True (the default) the loss recorded first is the one for variance one, which can be larger than the last one although filter and output are unchanged. AuxLaplaceFDICA with IP1 without flooring resumes through scale restoration: the second call reports the filters and outputs of one long call, as long as the filters reported first are invertible. n_iter=0 with demix_filter given (and no restoration) applies that filter. Permutation alignment only reorders, bin by bin, the filters and signals AuxFDICA returns without it.", "quantifier": "every recording, every number of channels, bins, frames and iterations of either call, every contrast function (majorised by its derivative for the monotone part), every scale restoration option named, every object state and keyword of the first call in the resume statements", "why_tests_cant": "tests call an object once, or compare two floating point runs on one recording", "anchors": ["ssspy/bss/iva.py::AuxIVA.__call__", "ssspy/bss/iva.py::AuxIVA._reset", "ssspy/bss/iva.py::AuxGaussIVA._reset", "ssspy/bss/iva.py::AuxGaussIVA.update_once", "ssspy/bss/fdica.py::AuxFDICA.__call__", "ssspy/bss/fdica.py::FDICABase._reset", "ssspy/bss/base.py::IterativeMethodBase.__call__"]}
{"id": "C90", "title": "Calls of the proximal methods: when they return, how they resume, what their keywords do", "statement": "PDSBSS with a positive step size mu1 and no relaxation returns with projection back for every recording (even a silent one), every proximal operator, every object state and keyword, as soon as there is one iteration; the reported filter produces the output and the outputs sum to the reference channel. Without scale restoration a second PDSBSS call with initial_call=False continues exactly as one long call would; with it (the default) it does not: the recorded losses differ. ADMMBSS resumes exactly through every scale restoration, because its iterations never read the demixing filter. For the same reason the keyword demix_filter has no effect on the result of an ADMMBSS call with at least one iteration, and the first iteration of a new ADMMBSS object sets the filter to zero: one iteration gives silence without scale restoration and LinAlgError with projection back (the default), while two iterations return if the proximal operators leave silence alone. A MaskingPDSBSS / MaskingADMMBSS call is the PDSBSS / ADMMBSS call with one penalty whose proximal operator is the mask.", "quantifier": "every recording, number of channels, bins, frames, penalties and iterations, every proximal operator or mask, step size, object state and keyword arguments", "why_tests_cant": "the statements are about all recordings, operators and object states; a test compares a few floating point runs, and the existing ones run enough iterations not to see the first", "anchors": ["ssspy/bss/pdsbss.py::PDSBSS.__call__", "ssspy/bss/pdsbss.py::PDSBSS._reset", "ssspy/bss/pdsbss.py::MaskingPDSBSS.__call__", "ssspy/bss/admmbss.py::ADMMBSS.__call__", "ssspy/bss/admmbss.py::ADMMBSS._reset", "ssspy/bss/admmbss.py::ADMMBSS.update_once", "ssspy/bss/admmbss.py::MaskingADMMBSS.__call__", "ssspy/bss/proxbss.py::ProxBSSBase._reset"]}
{"id": "C91", "title": "Spectral normalisation makes the default step sizes of the proximal methods admissible", "statement": "normalize_by_spectral_norm of the proximal methods multiplies a recording by one positive number. After it, for every stack of demixing filters, the number of penalties times the energy of the separated signals is at most the energy of the filters, and some nonzero filter attains this: mu1 = mu2 = 1 satisfy the step size condition of the primal-dual method, with nothing to spare. The quadratic form that couples filters and dual variables is then positive semidefinite. The result does not depend on the level of the recording and normalising twice is normalising once. It fails exactly for a recording that is silent (or has no bins) and for zero penalties.", "quantifier": "every recording, number of channels, bins, frames and penalties, every demixing filter and dual variable", "why_tests_cant": "the bound is over all demixing filters; a test can only try some, and the method is not called by any separator in the package", "anchors": ["ssspy/bss/proxbss.py::ProxBSSBase.normalize_by_spectral_norm", "ssspy/bss/proxbss.py::ProxBSSBase.n_penalties"]}
{"id": "C92", "title": "Which configurations the separators accept and which accepted ones complete a call", "statement": "The constructors of GaussILRMA, TILRMA, GGDILRMA, AuxIVA, AuxFDICA, FastGaussMNMF, GaussIPSDTA and TIPSDTA accept exactly a stated set of algorithm names, domain and shape parameters, reference channels and extra keywords. If the numerical updates do not raise, a call of an accepted configuration returns exactly if (it has no iterations or the normalisation by that name exists, for ILRMA not projection_back with partitioning, for IPSDTA only MM with VCD) and the names given for permutation alignment and scale restoration are known. So a misspelt scale_restoration is only reported, by ValueError, after all iterations, with the object left in the state the call without scale restoration leaves, and the documented IPSDTA options EM and FPI raise NotImplementedError. IP and IP1, ISS and ISS1, True and power, True and projection_back and PB are interchangeable.", "quantifier": "every string, number and option given to the constructors, every number of iterations, object state and numerical update", "why_tests_cant": "the arguments range over all strings, numbers and combinations; the tests run a few documented combinations", "anchors": ["ssspy/bss/ilrma.py::GaussILRMA.__init__", "ssspy/bss/ilrma.py::TILRMA.__init__", "ssspy/bss/ilrma.py::GGDILRMA.__init__", "ssspy/bss/ilrma.py::ILRMABase.normalize", "ssspy/bss/ilrma.py::ILRMABase.restore_scale", "ssspy/bss/iva.py::AuxIVA.__init__", "ssspy/bss/fdica.py::AuxFDICA.__init__", "ssspy/bss/fdica.py::FDICABase.solve_permutation", "ssspy/bss/mnmf.py::FastGaussMNMF.__init__", "ssspy/bss/ipsdta.py::GaussIPSDTA.__init__", "ssspy/bss/ipsdta.py::GaussIPSDTA._reset", "ssspy/bss/ipsdta.py::TIPSDTA.__init__"]}
{"id": "C93", "title": "Calls of gradient ICA, FDICA and IVA, FastICA, FastIVA and FasterIVA: when they return, what, and how they resume", "statement": "Two calls, the second with initial_call=False, are one call with all the iterations (same outputs, filters, losses and exception): for GradICA, NaturalGradICA and FastICA always, for GradFDICA, NaturalGradFDICA, GradIVA, NaturalGradIVA, FastIVA and FasterIVA without scale restoration (and alignment), for the Gauss IVA classes, which forget their variance, if the second call iterates. A call of NaturalGradICA always returns; GradICA raises only LinAlgError, and only if it meets a singular filter; NaturalGradIVA with projection back raises exactly if the filter it arrives at is singular in some bin, and otherwise its outputs sum to the reference channel. A call of FastICA that returns after at least one iteration on a full-rank recording reports an orthogonal filter, uncorrelated signals of unit power, and separate(input, demix_filter) reproduces them. FastIVA and FasterIVA calls with at least one iteration on a full-rank recording return with every documented scale_restoration, from every start; without restoration the signals of every bin are white, with projection back they sum to the reference channel. n_iter=0 with demix_filter given applies that filter.", "quantifier": "every recording, start filter, contrast and score function, step size, flooring function, number of iterations, object state, eigenvalue and singular value routine", "why_tests_cant": "the tests run a few iterations on one recording and look at shapes; equality of resumed and uninterrupted runs and success on every full-rank recording quantify over all inputs", "anchors": ["ssspy/bss/ica.py::GradICABase.__call__", "ssspy/bss/ica.py::GradICABase._reset", "ssspy/bss/ica.py::FastICABase.__call__", "ssspy/bss/ica.py::FastICABase._reset", "ssspy/bss/ica.py::FastICABase.separate", "ssspy/bss/fdica.py::GradFDICABase.__call__", "ssspy/bss/iva.py::GradIVABase.__call__", "ssspy/bss/iva.py::GradGaussIVA._reset", "ssspy/bss/iva.py::NaturalGradGaussIVA._reset", "ssspy/bss/iva.py::FastIVABase._reset", "ssspy/bss/iva.py::FastIVA.__call__", "ssspy/bss/iva.py::FasterIVA.__call__"]}
{"id": "C94", "title": "Calls of GaussIPSDTA and TIPSDTA: what a first call returns, how it resumes, and that initial_call has no effect", "statement": "Without scale restoration a second call of GaussIPSDTA or TIPSDTA on the same object ends in the same filters, basis, activation and output, or the same exception, as one call with all the iterations, whatever random numbers are drawn; but the loss at the interruption is recorded twice, with initial_call=False as well as without it, since initial_call is taken for an attribute. A first call with projection back on a recording with linearly independent channels in every bin returns as long as no flooring is active: n_iter+1 losses that never increase, the filter reported produces the output, the basis matrices are positive definite and the activations positive, and the outputs sum to the reference channel. n_iter=0 with demix_filter, basis and activation given applies that filter and keeps the parameters. n_blocks=0 raises ZeroDivisionError at the first call; basis=None or activation=None never returns.", "quantifier": "every recording, number of blocks, basis vectors and iterations, random numbers, object state, flooring function, eigenvalue routine", "why_tests_cant": "the tests run a few iterations from one seed and look at shapes; equality of resumed and uninterrupted runs quantifies over all states", "anchors": ["ssspy/bss/ipsdta.py::IPSDTABase.__call__", "ssspy/bss/ipsdta.py::BlockDecompositionIPSDTABase._reset", "ssspy/bss/ipsdta.py::BlockDecompositionIPSDTABase._init_block_decomposition_psdtf", "ssspy/bss/ipsdta.py::GaussIPSDTA._reset"]}
{"id": "C95", "title": "GaussMNMF and CACGMM do not see a rotation of the channels, in particular the order or polarity of the microphones", "statement": "If the channels of a recording are renamed, or mixed with a unitary matrix in each frequency bin (a changed polarity, a phase), GaussMNMF with or without partitioning, started from the same random numbers, returns the same basis, activations, latents and losses; the spatial covariances are conjugated with that matrix, and the outputs for all reference channels are mixed with it. With renamed channels and the reference channel renamed accordingly the outputs are the same. Calls that resume from rotated covariances behave alike, and exceptions are the same. CACGMM started from the conjugated covariances ends with the same mixing proportions, posterior probabilities and loss, and its outputs are the posteriors times the reference channel of the rotated recording.", "quantifier": "every recording, unitary matrix per bin, permutation of the channels, reference channel, random numbers, positive flooring function (any for CACGMM), number of iterations, eigenvalue routine", "why_tests_cant": "tests use one arrangement of microphones and compare shapes; the claim compares two whole runs for all rotations", "anchors": ["ssspy/bss/mnmf.py::GaussMNMF.update_once", "ssspy/bss/mnmf.py::GaussMNMF.update_spatial", "ssspy/bss/mnmf.py::GaussMNMF.separate", "ssspy/bss/mnmf.py::GaussMNMF.compute_loss", "ssspy/bss/mnmf.py::MNMF._init_nmf", "ssspy/bss/cacgmm.py::CACGMM.update_posterior", "ssspy/bss/cacgmm.py::CACGMM.update_parameters", "ssspy/bss/cacgmm.py::CACGMM.compute_loss"]}
{"id": "C96", "title": "How frequency bins, NMF components and (for MNMF and CACGMM) sources are numbered does not matter", "statement": "If the frequency bins of a recording are renumbered, and with them the random numbers, keyword arguments and attributes that belong to bins, a call of AuxIVA, AuxGaussIVA, GaussILRMA, TILRMA, GGDILRMA, GaussMNMF or FastGaussMNMF, or without permutation alignment of AuxFDICA or CACGMM, leaves the same results with the bins renumbered, the same losses, or the same exception. The same holds for the NMF components, numbered separately for every source without partitioning. It also holds for the components of GaussIPSDTA and TIPSDTA, numbered separately for every source. For GaussMNMF and FastGaussMNMF the sources may be renumbered as well, for CACGMM even differently in every bin, and the outputs are renumbered accordingly.", "quantifier": "every recording, permutation of bins, components and sources, random numbers, keyword arguments, state of the object, flooring function, algorithm, normalisation, scale restoration, number of iterations", "why_tests_cant": "tests compare shapes for one order; the claim relates two whole runs for all permutations", "anchors": ["ssspy/bss/iva.py::AuxIVA.__call__", "ssspy/bss/iva.py::AuxGaussIVA.update_source_model", "ssspy/bss/fdica.py::AuxFDICA.__call__", "ssspy/bss/ilrma.py::GaussILRMA.update_once", "ssspy/bss/ilrma.py::TILRMA.update_once", "ssspy/bss/ilrma.py::GGDILRMA.update_once", "ssspy/bss/ilrma.py::ILRMABase._init_nmf", "ssspy/bss/mnmf.py::GaussMNMF.update_once", "ssspy/bss/mnmf.py::FastGaussMNMF.update_once", "ssspy/bss/cacgmm.py::CACGMM.update_posterior", "ssspy/bss/cacgmm.py::CACGMM.update_parameters", "ssspy/bss/ipsdta.py::GaussIPSDTA.update_once", "ssspy/bss/ipsdta.py::TIPSDTA.update_once"]}
{"id": "C97", "title": "Renumbering the microphones renumbers the outputs of the gradient methods", "statement": "If the channels of a recording are renumbered, the sources of the initial filter too, and the reference channel accordingly, a call of GradICA, NaturalGradICA, GradIVA, NaturalGradIVA, GradGaussIVA or NaturalGradGaussIVA, or without permutation alignment of GradFDICA or NaturalGradFDICA, leaves the same outputs and filter with sources and channels renumbered, the same losses, or the same exception, provided contrast and score treat all sources alike. Objects that start from the identity filter number the outputs as the microphones. For FDICA the numbering may differ from bin to bin. The Laplace and Gauss models meet the proviso.", "quantifier": "every recording, permutation of channels and of sources, step size, holonomic or not, contrast and score functions that commute with the permutation, scale restoration, reference channel, initial filter, state of the object, number of iterations, initial_call", "why_tests_cant": "tests run one order of the channels; the claim relates two whole runs for all permutations", "anchors": ["ssspy/bss/ica.py::GradICA.update_once", "ssspy/bss/ica.py::NaturalGradICA.update_once", "ssspy/bss/fdica.py::GradFDICA.update_once", "ssspy/bss/fdica.py::NaturalGradFDICA.update_once", "ssspy/bss/iva.py::GradIVA.update_once", "ssspy/bss/iva.py::NaturalGradIVA.update_once", "ssspy/bss/iva.py::GradGaussIVA.update_once", "ssspy/bss/iva.py::NaturalGradGaussIVA.update_once", "ssspy/bss/iva.py::GradIVABase.__call__"]}
{"id": "C98", "title": "What the constructors of the proximal separators accept, and what the object made does", "statement": "PDSBSS and ADMMBSS accept exactly a proximal operator or a list of them, no penalty or as many penalties, record_loss=True only with a penalty, a reference channel unless the scale is left alone, and alpha or relaxation but not both; every other combination raises the stated exception. alpha=x behaves as relaxation=x, a single function as a list of one. After a first call loss holds one value per iteration (one more for the start) if and only if record_loss=True was passed; record_loss=None never records. ADMMBSS(prox_penalty=f) with defaults always raises. PDSBSS with any accepted penalties and operators returns on every recording. The masking methods accept one penalty not in a list, and with record_loss=True they fail in the constructor or in the first call; harmonic vector analysis with record_loss=True cannot be made. PDSIVA and ADMMIVA want contrast and proximal operator together or neither. The old keywords aux1 and aux2 act as the new ones.", "quantifier": "every combination of the arguments of the constructors, every recording, number of iterations, initial_call, step size, proximal operator, penalty and mask", "why_tests_cant": "the tests construct a few combinations; the claim is an equivalence over all of them, and for the recorded losses over all runs", "anchors": ["ssspy/bss/proxbss.py::ProxBSSBase.__init__", "ssspy/bss/pdsbss.py::PDSBSS.__init__", "ssspy/bss/pdsbss.py::MaskingPDSBSS.__init__", "ssspy/bss/admmbss.py::ADMMBSS.__init__", "ssspy/bss/admmbss.py::MaskingADMMBSS.__init__", "ssspy/bss/admmbss.py::ADMMBSS._reset", "ssspy/bss/hva.py::MaskingPDSHVA.__init__", "ssspy/bss/hva.py::MaskingADMMHVA.__init__", "ssspy/bss/iva.py::PDSIVA.__init__", "ssspy/bss/iva.py::ADMMIVA.__init__"]}
{"id": "C99", "title": "The proximal separators and the coordinates of the microphones", "statement": "PDSBSS without scale restoration does not see rotations of the channels: on the recording QX, with Q unitary in every bin, started from the filter W Q^H, a call leaves the same output, the same dual and the same losses as on X started from W, and the resulting filter times Q^H. PDSBSS and ADMMBSS with any scale restoration: renumbering the microphones together with the reference channel renumbers the outputs and leaves the recorded losses unchanged, for proximal operators and penalties that treat the sources alike, so for PDSIVA and ADMMIVA with their defaults, and for MaskingPDSBSS with a mask that follows the sources, as the mask of harmonic vector analysis does. The two runs may use different correct LAPACKs, and they raise the same exceptions. For ADMMBSS real orthogonal coordinates common to channels and sources are allowed.", "quantifier": "every recording, unitary or permutation matrices, number of iterations, step sizes, proximal operators, penalties, masks, correct SVD routines, and every run in which neg_logdet meets only invertible matrices (for ADMMBSS also zero, if the SVD of zero gives adjoint singular vectors)", "why_tests_cant": "tests run one recording; invariance concerns all recordings and all changes of coordinates", "anchors": ["ssspy/bss/pdsbss.py::PDSBSS.update_once", "ssspy/bss/pdsbss.py::MaskingPDSBSS.update_once", "ssspy/bss/admmbss.py::ADMMBSS.update_once", "ssspy/bss/proxbss.py::ProxBSSBase.compute_loss", "ssspy/bss/proxbss.py::ProxBSSBase._reset", "ssspy/bss/hva.py::MaskingPDSHVA.__init__", "ssspy/linalg/prox.py::neg_logdet", "ssspy/bss/iva.py::PDSIVA.__init__", "ssspy/bss/iva.py::ADMMIVA.__init__"]}
{"id": "C100", "title": "TILRMA with many degrees of freedom and GGDILRMA with a shape parameter near two become GaussILRMA", "statement": "Take one recording, one set of random numbers and the same n_iter, domain, flooring function, normalization (off or power) and scale_restoration. As dof grows without bound, a call of TILRMA with spatial_algorithm IP1 or ISS1 (source_algorithm MM, or ME with IP1) eventually returns, and its demixing filters, outputs, bases, activations and every recorded loss converge to what GaussILRMA leaves. With the default flooring this needs no condition on the run. As beta approaches 2 from below (2 itself is refused), the same holds for GGDILRMA, provided no separated entry is exactly zero during the GaussILRMA run. The proviso is needed: an entry that is exactly zero keeps a weight that is the Gaussian weight divided by the floor of zero.", "quantifier": "every recording with linearly independent channels in every bin, every number of iterations, initial values, random numbers, domain, reference channel, scale restoration and continuous positive flooring function", "why_tests_cant": "the tests run dof=1000 and beta=1.99 for a few iterations on one recording and do not compare with GaussILRMA; the claim is a limit over all parameters and holds for every number of iterations", "anchors": ["ssspy/bss/ilrma.py::TILRMA.update_once", "ssspy/bss/ilrma.py::TILRMA.compute_loss", "ssspy/bss/ilrma.py::GGDILRMA.update_once", "ssspy/bss/ilrma.py::GGDILRMA.compute_loss", "ssspy/bss/ilrma.py::GaussILRMA.update_once", "ssspy/bss/ilrma.py::GaussILRMA.__call__"]}
{"id": "C101", "title": "Frequency-domain ICA works bin by bin, and on one bin IVA is frequency-domain ICA", "statement": "With permutation_alignment switched off, a call of AuxFDICA (IP1 or IP2), GradFDICA or NaturalGradFDICA on a recording returns exactly if the calls on each of its frequency bins alone return. It then leaves in every bin the demixing filter and the separated signal that the call on that bin leaves, and every recorded loss is the sum of the losses recorded for the bins. This holds for first calls and for later calls of the same objects, with or without a demix_filter keyword and with any scale restoration. So separating a selection of the bins gives what separating all of them gives for the selected bins. On a recording of a single bin AuxFDICA is AuxIVA with the same contrast function, and GradLaplaceFDICA and NaturalGradLaplaceFDICA are GradLaplaceIVA and NaturalGradLaplaceIVA: same filters, outputs, losses and exceptions.", "quantifier": "every recording, number of bins, channels, frames and iterations, flooring function, contrast function (element by element for the gradient methods), step size, initial filter and object state", "why_tests_cant": "the tests never separate a part of the bins and never compare FDICA with IVA; a leak between bins (a shared normalisation, a reduction over the wrong axis) changes the numbers without raising", "anchors": ["ssspy/bss/fdica.py::AuxFDICA.__call__", "ssspy/bss/fdica.py::AuxFDICA.update_once_ip1", "ssspy/bss/fdica.py::AuxFDICA.update_once_ip2", "ssspy/bss/fdica.py::GradFDICABase.__call__", "ssspy/bss/fdica.py::NaturalGradFDICA.update_once", "ssspy/bss/iva.py::AuxIVA.__call__", "ssspy/bss/iva.py::GradLaplaceIVA.update_once"]}
{"id": "C102", "title": "Partitioned ILRMA never reassigns a component; with hard assignments it is ILRMA without partitioning", "statement": "GaussILRMA, TILRMA or GGDILRMA with partitioning=True, called with a latent that is zero for some pairs of source and component (every source having a component and every component a source), a positive flooring function, linearly independent channels and normalization off or by power, returns, and the latent it leaves is zero for exactly the same pairs: a source never starts and never stops using a component, however many iterations run. If every component belongs to one source alone and all sources have equally many, the call does what the same method with partitioning=False does when started from the bases and activations of these components: same demixing filters, outputs, recorded losses and exceptions, the bases and activations of the sources side by side, and a latent that is still the assignment. Both for IP1, IP2, ISS1 and ISS2.", "quantifier": "every recording with linearly independent channels, source model, domain, number of components, iterations, initial values, object state and scale restoration", "why_tests_cant": "the tests never pass a latent with zeros and never compare the two forms of a method; that the zeros survive the multiplicative update, its renormalisation and the power normalisation for any number of iterations needs an invariant", "anchors": ["ssspy/bss/ilrma.py::GaussILRMA.update_latent_mm", "ssspy/bss/ilrma.py::TILRMA.update_latent_mm", "ssspy/bss/ilrma.py::GGDILRMA.update_latent_mm", "ssspy/bss/ilrma.py::GaussILRMA.update_basis_mm", "ssspy/bss/ilrma.py::GaussILRMA.update_activation_mm", "ssspy/bss/ilrma.py::ILRMABase.normalize_by_power", "ssspy/bss/ilrma.py::ILRMABase.reconstruct_nmf", "ssspy/bss/ilrma.py::GaussILRMA.__call__"]}
{"id": "C103", "title": "What record_loss changes", "statement": "If a call of a separator made with record_loss=True returns, the same call of one made with record_loss=False returns too and leaves the same attributes and the same result; only the attribute loss differs: with True one number per iteration was appended (one more with initial_call), with False it is None. For ICA, FDICA, IVA (gradient, fast, auxiliary-function), ILRMA (IP1, IP2) and FastGaussMNMF the converse holds as well, including the exceptions. For ILRMA and AuxIVA with ISS1 or ISS2 a call with record_loss=True returns exactly if the one with False does and, unless no loss is asked for, the channels are linearly independent in every bin; on a new AuxIVA object with ISS1 and without scale restoration the one with False always returns, the one with True raises LinAlgError when channels of a bin are dependent.", "quantifier": "every recording, number of iterations, initial_call, algorithm option, initial values and object state", "why_tests_cant": "the tests run few recordings, all with independent channels, and compare no results between the two settings", "anchors": ["ssspy/bss/base.py::IterativeMethodBase.__init__", "ssspy/bss/base.py::IterativeMethodBase.__call__", "ssspy/bss/iva.py::AuxIVA.compute_loss", "ssspy/bss/iva.py::IVABase.compute_loss", "ssspy/bss/ilrma.py::GaussILRMA.compute_loss", "ssspy/bss/ilrma.py::TILRMA.compute_loss", "ssspy/bss/ilrma.py::GGDILRMA.compute_loss"]}
{"id": "C104", "title": "Which functions a separator must be given, and what the named classes are", "statement": "GradICA, NaturalGradICA, GradFDICA, NaturalGradFDICA, GradIVA and NaturalGradIVA raise ValueError on construction exactly if contrast_fn or score_fn is missing (FDICA and IVA: or reference_id is None although the scale is to be restored); FastICA also needs d_score_fn, FastIVA d_contrast_fn and dd_contrast_fn, FasterIVA d_contrast_fn. This holds also with record_loss=False, although the contrast function then has no influence on the call. AuxIVA accepts None for both functions: without contrast_fn a call returns exactly as with one if record_loss=False, and never returns if record_loss=True and a loss is to be computed; without d_contrast_fn no call with an iteration returns, and a call without iterations does. AuxFDICA checks contrast_fn but not d_contrast_fn. The named classes are the general ones with these functions: Laplace ICA |y| and sign(y); Laplace FDICA 2|y|, y/flooring(|y|) and derivative 2; Laplace IVA 2‖y‖, y/flooring(‖y‖) and derivative 2; flooring_fn=None is the identity. An accepted object behaves in its first call as the method with those functions, and its loss attribute is None if record_loss=False.", "quantifier": "every combination of given and missing functions, step size, flooring, scale restoration, reference and record_loss, every recording and number of iterations", "why_tests_cant": "the tests construct each class with all functions given; what is accepted and only fails, or is never used, later depends on combinations of options", "anchors": ["ssspy/bss/ica.py::GradICABase.__init__", "ssspy/bss/ica.py::FastICABase.__init__", "ssspy/bss/ica.py::GradLaplaceICA.__init__", "ssspy/bss/ica.py::NaturalGradLaplaceICA.__init__", "ssspy/bss/fdica.py::FDICABase.__init__", "ssspy/bss/fdica.py::GradFDICABase.__init__", "ssspy/bss/fdica.py::GradLaplaceFDICA.__init__", "ssspy/bss/fdica.py::NaturalGradLaplaceFDICA.__init__", "ssspy/bss/fdica.py::AuxFDICA.__init__", "ssspy/bss/fdica.py::AuxLaplaceFDICA.__init__", "ssspy/bss/iva.py::IVABase.__init__", "ssspy/bss/iva.py::GradIVABase.__init__", "ssspy/bss/iva.py::FastIVA.__init__", "ssspy/bss/iva.py::FasterIVA.__init__", "ssspy/bss/iva.py::AuxIVABase.__init__", "ssspy/bss/iva.py::GradLaplaceIVA.__init__", "ssspy/bss/iva.py::NaturalGradLaplaceIVA.__init__", "ssspy/bss/iva.py::AuxLaplaceIVA.__init__"]}
{"id": "C105", "title": "With one bin in every block GaussIPSDTA is GaussILRMA", "statement": "A call of GaussIPSDTA with normalization=False and n_blocks equal to the number of bins gives the same demix_filter, output, activation and loss list as a call of GaussILRMA with source_algorithm='MM', spatial_algorithm='IP1', domain=2, normalization=False and flooring_fn=None from the same initial values, and its basis matrices hold the bases of ILRMA on their diagonal; one raises exactly if the other does. This holds as long as no flooring function of IPSDTA acts: the reconstructions stay above 1e-10 and the flooring function leaves the terms of the basis update alone.", "quantifier": "every recording, number of bins, sources, frames and bases, number of iterations, scale restoration, keyword arguments and attributes of the object before the call, every positive flooring function", "why_tests_cant": "the two classes compute their updates by entirely different routines (geometric means of matrices and vectorwise coordinate descent against multiplicative updates and iterative projection); tests never compare them, and agreement on one recording would not show agreement on all", "anchors": ["ssspy/bss/ipsdta.py::GaussIPSDTA.update_once", "ssspy/bss/ipsdta.py::GaussIPSDTA.compute_loss", "ssspy/bss/ipsdta.py::BlockDecompositionIPSDTABase._reset", "ssspy/bss/ilrma.py::GaussILRMA.update_once", "ssspy/bss/ilrma.py::GaussILRMA.compute_loss"]}
{"id": "C106", "title": "FastGaussMNMF in which every source owns one channel is GaussILRMA with projection back", "statement": "Call FastGaussMNMF with as many sources as channels, flooring_fn=None and a diagonal array spatial (source k occurs only in diagonalised channel k). It returns the separated signals, the loss list and the activation that GaussILRMA with source_algorithm='MM', domain=2, the same spatial algorithm (IP1, or IP2 whose pairs cover all sources), the same normalization, flooring_fn=None and scale_restoration=True returns for the same reference channel, when the basis of ILRMA starts as the basis of FastMNMF times the diagonal of spatial. This relation between the bases holds again at the end, spatial stays diagonal, and without normalization the update of spatial never changes it.", "quantifier": "every number of sources, bins, frames, bases and iterations, every recording with independent channels in every bin, all positive starting values and invertible filters, as long as no separated signal is silent in a whole frame during the run", "why_tests_cant": "the classes use different formulas (a multichannel Wiener filter with matrix inverses against a demixing filter rescaled afterwards, and one more parameter update); no test compares them, and equality on samples would not show it for all recordings and iterations", "anchors": ["ssspy/bss/mnmf.py::FastGaussMNMF.update_once", "ssspy/bss/mnmf.py::FastGaussMNMF.separate", "ssspy/bss/mnmf.py::FastGaussMNMF.compute_loss", "ssspy/bss/mnmf.py::FastGaussMNMF.update_spatial", "ssspy/bss/ilrma.py::GaussILRMA.update_once", "ssspy/bss/ilrma.py::ILRMABase.apply_projection_back"]}
{"id": "C107", "title": "FastGaussMNMF is GaussMNMF with spatial covariances that one matrix diagonalises", "statement": "Take parameters of FastGaussMNMF and give GaussMNMF the same basis and activation and, as spatial covariance of source k in bin f, the matrix Q^-1 diag(spatial[f, k]) Q^-H with Q = diagonalizer[f]. With flooring_fn=None a call of either class with n_iter=0 returns the same separated signals and appends the same loss; the Wiener filters agree for every flooring function. After n_iter=1 both have the same activation, and the same basis when GaussMNMF does not normalise: only the updates of the spatial parameters differ.", "quantifier": "every number of sources, channels, bins, frames and bases, every recording with no silent bin, all positive parameters and invertible diagonalisers", "why_tests_cant": "one class works with matrix inverses, traces and determinants of modelled covariances, the other with sums over diagonalised channels; no test compares them, and agreement on samples would not show it for all parameters", "anchors": ["ssspy/bss/mnmf.py::FastGaussMNMF.compute_loss", "ssspy/bss/mnmf.py::FastGaussMNMF.separate", "ssspy/bss/mnmf.py::FastGaussMNMF.update_basis", "ssspy/bss/mnmf.py::FastGaussMNMF.update_activation", "ssspy/bss/mnmf.py::GaussMNMF.compute_loss", "ssspy/bss/mnmf.py::GaussMNMF.separate", "ssspy/bss/mnmf.py::GaussMNMF.update_basis", "ssspy/bss/mnmf.py::GaussMNMF.update_activation"]}
{"id": "C108", "title": "Partitioned GaussMNMF never reassigns a component, and with hard assignments it is GaussMNMF without partitioning", "statement": "A call of GaussMNMF(partitioning=True) started from latent variables of which some are zero returns and leaves exactly the same ones zero. If every component is assigned to one source (latent variables 0 and 1, equally many components per source) and normalization=False, the call leaves the spatial covariances, separated signals and losses of GaussMNMF(partitioning=False), with the bases and activations of all sources side by side. With normalization=True the two differ after one iteration: both divide the covariances by their traces, but only the class without partitioning multiplies the bases by them.", "quantifier": "every number of sources, channels, bins, frames, components and iterations, every recording, every positive flooring function, all starting values", "why_tests_cant": "tests run a few iterations from random positive latent variables; that a zero never becomes positive, and equality with the class without partitioning, are claims about all starting points and all numbers of iterations", "anchors": ["ssspy/bss/mnmf.py::GaussMNMF.update_latent", "ssspy/bss/mnmf.py::GaussMNMF.update_basis", "ssspy/bss/mnmf.py::GaussMNMF.update_activation", "ssspy/bss/mnmf.py::GaussMNMF.update_once", "ssspy/bss/mnmf.py::MNMF.normalize"]}
{"id": "C109", "title": "With two sources IP2 and ISS2 give the same result", "statement": "For two sources, GaussILRMA, TILRMA and GGDILRMA called with spatial_algorithm=\"IP2\" and \"ISS2\" (with or without partitioning, with any normalization, with different pair selectors, from the same start) record the same losses and return the same output, bases and activations when scale restoration is on; without scale restoration the outputs differ only by a factor of modulus one per bin and source. One update does not depend on the filter it starts from, except through the weights, nor on the number or order of the pairs. AuxGaussIVA agrees in the same way. AuxIVA agrees when its selector yields one pair; in general n_iter iterations of IP2 with L pairs equal n_iter*L iterations of ISS2, because IP2 recomputes its weights before every pair and ISS2 does not. The default selector yields both orders of the only pair.", "quantifier": "every number of bins, frames, components and iterations, every recording with linearly independent channels, all starting filters, every LAPACK implementation, every flooring function that does not act on the norms of the pair, provided the two weighted covariances in a bin are positive definite and not proportional", "why_tests_cant": "tests compare shapes of one run per algorithm; equality of two differently computed runs for all inputs, and for every choice of eigenvectors by LAPACK, needs a proof that the joint diagonaliser is unique up to phases", "anchors": ["ssspy/bss/ilrma.py::GaussILRMA.update_spatial_model_ip2", "ssspy/bss/ilrma.py::GaussILRMA.update_spatial_model_iss2", "ssspy/bss/ilrma.py::TILRMA.update_spatial_model_ip2", "ssspy/bss/ilrma.py::TILRMA.update_spatial_model_iss2", "ssspy/bss/ilrma.py::GGDILRMA.update_spatial_model_ip2", "ssspy/bss/ilrma.py::GGDILRMA.update_spatial_model_iss2", "ssspy/bss/iva.py::AuxIVA.update_once_ip2", "ssspy/bss/iva.py::AuxIVA.update_once_iss2", "ssspy/bss/iva.py::AuxGaussIVA.update_once_ip2"]}
{"id": "C110", "title": "The normalization option of ILRMA does not influence losses or scale-restored output", "statement": "With flooring_fn=None, without partitioning and with scale_restoration on, GaussILRMA, TILRMA and GGDILRMA called with normalization off, by power or by projection back (any reference channel) record the same losses and return the same output, demixing filters and activations; only the bases differ. The same holds for IP1, IP2, ISS1 and ISS2, for MM and ME updates and every domain. More generally, starting from demixing filters whose rows are multiplied by any non-zero complex numbers, one per bin and source, and from bases multiplied by the domain-th power of their moduli, gives the same losses and output.", "quantifier": "every number of bins, channels, frames, components and iterations, every recording and start for which bases and activations stay positive, filters stay invertible and normalizable, and (IP2, ISS2) the two weighted covariances of a pair are not proportional; every LAPACK implementation. For GaussILRMA and TILRMA with IP1 or ISS1 and power normalization versus none, linearly independent channels and no output silent in all bins of a frame suffice", "why_tests_cant": "tests run each option once and compare shapes; that two different sequences of iterates stay equivalent for ever needs the equivariance of every update under rescaling", "anchors": ["ssspy/bss/ilrma.py::ILRMABase.normalize", "ssspy/bss/ilrma.py::ILRMABase.normalize_by_power", "ssspy/bss/ilrma.py::ILRMABase.normalize_by_projection_back", "ssspy/bss/ilrma.py::GaussILRMA.__call__", "ssspy/bss/ilrma.py::GaussILRMA.update_once", "ssspy/bss/ilrma.py::TILRMA.update_once", "ssspy/bss/ilrma.py::GGDILRMA.update_once"]}
{"id": "C111", "title": "CACGMM sees only the directions of the observation vectors", "statement": "Multiplying every frame of every frequency bin of the recording by its own non-zero complex number (a time-varying gain, an equaliser, a phase) leaves all recorded losses, the mixing weights, the covariances and the posteriors of CACGMM unchanged, and multiplies the output by the same numbers, as long as flooring does not act on the norms of the observation vectors (frames that are exactly silent may remain so). This holds for every permutation_alignment that does not look at amplitudes, in particular the default; with amplitude_score or amplitude_correlation the result is the same up to the order of the sources within each bin, and exactly the same if within each bin all gains have the same absolute value (amplitude_correlation: with flooring_fn=None).", "quantifier": "every recording, every gain per bin and frame, every number of bins, channels, sources, frames and iterations, with and without normalization, every flooring function that leaves the norms of both recordings alone, every state of the random number generator, every LAPACK implementation", "why_tests_cant": "a test compares one gain on one recording up to rounding; the claim is invariance of every iterate under an infinite group acting on the input, including recordings with silent frames", "anchors": ["ssspy/bss/cacgmm.py::CACGMMBase._reset", "ssspy/bss/cacgmm.py::CACGMM.__call__", "ssspy/bss/cacgmm.py::CACGMM.update_once", "ssspy/bss/cacgmm.py::CACGMM.update_posterior", "ssspy/bss/cacgmm.py::CACGMM.update_parameters", "ssspy/bss/cacgmm.py::CACGMM.compute_loss", "ssspy/bss/cacgmm.py::CACGMM.separate"]}
{"id": "C112", "title": "FastGaussMNMF depends neither on normalization nor on how scales are spread, and passes gains per bin through", "statement": "With flooring_fn=None, FastGaussMNMF called with normalization=True and normalization=False records the same losses and returns the same output, bases and activations; only diagonalizers and spatial weights differ. Moreover, multiplying the rows of the initial diagonalizers by any non-zero complex numbers, the bases by positive numbers per source and bin and per source and component, dividing the activations by the latter, and multiplying the spatial weights accordingly, changes neither losses nor output. If the bins of the recording are multiplied by non-zero complex gains a and the initial bases by |a|^2, the output is multiplied by a and every loss is shifted by the same constant.", "quantifier": "every number of bins, sources, channels, frames, components and iterations, IP1 and IP2, every recording whose channels are linearly independent in every bin and that has no frame silent in all bins, every positive start with invertible diagonalizers; for IP2 additionally no pair of weighted covariances is proportional; every LAPACK implementation", "why_tests_cant": "tests run one option on one recording; that two different sequences of iterates stay equivalent for any number of iterations needs the equivariance of every update under rescaling", "anchors": ["ssspy/bss/mnmf.py::FastMNMFBase.normalize", "ssspy/bss/mnmf.py::FastMNMFBase.normalize_by_power", "ssspy/bss/mnmf.py::FastGaussMNMF.update_once", "ssspy/bss/mnmf.py::FastGaussMNMF.update_basis", "ssspy/bss/mnmf.py::FastGaussMNMF.update_activation", "ssspy/bss/mnmf.py::FastGaussMNMF.update_diagonalizer", "ssspy/bss/mnmf.py::FastGaussMNMF.update_spatial", "ssspy/bss/mnmf.py::FastGaussMNMF.compute_loss", "ssspy/bss/mnmf.py::FastGaussMNMF.separate"]}
{"id": "C113", "title": "ILRMA passes gains per bin through to its output", "statement": "With flooring_fn=None, without partitioning and with scale_restoration on: if every bin of the recording is multiplied by its own non-zero complex gain a(f) (an equalizer, a delay, a change of level or polarity) and the initial bases by |a(f)|^domain, GaussILRMA, TILRMA and GGDILRMA return the output of the original recording multiplied by the same gains and the same demixing filters and activations, and every recorded loss is shifted by the same constant 2 * n_sources * sum of log|a(f)|. One of the two calls may moreover use another normalization (off, by power, by projection back) and start from filters with rows multiplied by non-zero numbers and accordingly rescaled bases.", "quantifier": "every number of bins, channels, frames, components and iterations, IP1, IP2, ISS1 and ISS2, MM and ME updates, every domain, every gain, every recording and start for which bases and activations stay positive, filters stay invertible and normalizable, and (IP2, ISS2) the two weighted covariances of a pair are not proportional; every LAPACK implementation. For GaussILRMA and TILRMA with IP1 and power normalization or none, linearly independent channels and no output silent in all bins of a frame suffice", "why_tests_cant": "a relation between two complete runs over a continuum of recordings and gains; the iterates of the two runs differ in scale in every bin, only the restored outputs agree", "anchors": ["ssspy/bss/ilrma.py::GaussILRMA.__call__", "ssspy/bss/ilrma.py::GaussILRMA.update_once", "ssspy/bss/ilrma.py::GaussILRMA.update_spatial_model", "ssspy/bss/ilrma.py::GaussILRMA.compute_loss", "ssspy/bss/ilrma.py::TILRMA.update_once", "ssspy/bss/ilrma.py::GGDILRMA.update_once", "ssspy/bss/ilrma.py::ILRMABase.normalize", "ssspy/bss/ilrma.py::ILRMABase.restore_scale"]}
{"id": "C114", "title": "GaussMNMF does not depend on how the microphone signals are combined, nor on normalization", "statement": "With flooring_fn=None and without partitioning: if the channels of every bin are mixed by an invertible matrix A(f) and the initial spatial covariances H are replaced by A H A^H, GaussMNMF finds the same activations, the same bases and the spatial covariances A H A^H (up to the scale between bases and spatial covariances), and every recorded loss is shifted by 2 * sum of log|det A(f)|. If the reference channel of the new recording is a(f) times the reference channel of the old one, the output is a(f) times the old output. In particular normalization influences neither losses nor activations nor output; from the default spatial covariances, gains per bin pass through to the output when the bases are multiplied by |a(f)|^2, and the order of the microphones does not matter as long as the reference is the same microphone.", "quantifier": "every number of bins, channels, sources, frames, components and iterations, every recording without silent bins and frames, all positive bases and activations and positive definite spatial covariances, every family of invertible matrices, every run in which the whitened frames of every bin span the space at each spatial update (always so with one microphone, with one source and independent channels, and at the first update from scalar covariances); the two calls may use different LAPACK implementations", "why_tests_cant": "a relation between complete runs over all mixing matrices; the matrix geometric means of the two runs are computed from different matrices by different square roots, and coincide only because the Riccati equation has one positive solution", "anchors": ["ssspy/bss/mnmf.py::GaussMNMF.update_once", "ssspy/bss/mnmf.py::GaussMNMF.update_basis", "ssspy/bss/mnmf.py::GaussMNMF.update_activation", "ssspy/bss/mnmf.py::GaussMNMF.update_spatial", "ssspy/bss/mnmf.py::GaussMNMF.compute_loss", "ssspy/bss/mnmf.py::GaussMNMF.separate", "ssspy/bss/mnmf.py::MNMF.normalize", "ssspy/bss/mnmf.py::MNMFBase.__call__"]}
{"id": "C115", "title": "CACGMM does not depend on how the microphone signals are combined, on their calibration, nor on normalization", "statement": "With flooring_fn=None: if the channels of every bin are mixed by an invertible matrix A(f) and the covariances the EM iterations start from are replaced by A B A^H (on any scale), CACGMM computes the same posteriors and mixing weights in every iteration, hence the same masks; covariances are A B A^H on some scale and every recorded loss is shifted by the same number, computed from det A(f) and from how much A(f) stretches the observation vectors. In particular, whatever gain each microphone has in each bin, a call whose random initial covariances follow the gains returns the same posteriors and the output multiplied by the gain of the reference microphone, and the normalization option has no influence on posteriors and outputs; with the same permutation alignment option in both calls this holds source by source (the solvers take the same decisions), with different options up to the order of the sources within a bin.", "quantifier": "every number of bins, channels, sources, frames and iterations, every recording in which no observation vector is zero and in every bin no channel is a linear combination of the others, all positive mixing weights that sum to one and positive definite covariances, every family of invertible matrices, every valid alignment option; the two calls may use different LAPACK implementations and different normalization", "why_tests_cant": "a relation between complete runs over all mixing matrices; the normalised observation vectors of the two runs are related by a nonlinear map, and only the exact cancellation between determinant, quadratic form and normalisation makes the posteriors equal", "anchors": ["ssspy/bss/cacgmm.py::CACGMM.__call__", "ssspy/bss/cacgmm.py::CACGMM.update_once", "ssspy/bss/cacgmm.py::CACGMM.update_posterior", "ssspy/bss/cacgmm.py::CACGMM.update_parameters", "ssspy/bss/cacgmm.py::CACGMM.compute_loss", "ssspy/bss/cacgmm.py::CACGMM.separate", "ssspy/bss/cacgmm.py::CACGMMBase.normalize_covariance", "ssspy/bss/cacgmm.py::CACGMMBase._reset"]}
{"id": "C116", "title": "IPSDTA passes gains per bin through to its output, and its normalization has no influence on it", "statement": "Multiplying every bin of the recording by a non-zero number and giving the call bases D T D^H (D the diagonal matrix of the gains of the block, on any scale per basis if the activations are on the inverse scale) makes GaussIPSDTA and TIPSDTA compute the same demixing filters; the output is multiplied by the gains, with every scale restoration, and every recorded loss is shifted by the same number, 2 n_sources times the sum of the log gains. source_normalization changes bases and activations only: filters, output and losses are the same with and without it. For gains of modulus one the statement needs no assumption on the second run, and holds for the bases the class draws itself: losses are the same and the output is multiplied by the phases.", "quantifier": "every number of bins, blocks, sources, bases, frames and iterations, every recording with linearly independent channels, every invertible initial filter and positive definite bases and positive activations, all non-zero gains, every scale restoration option; runs in which no floor is active (for phases: in the first run)", "why_tests_cant": "a relation between two complete iterative runs over all gains and all recordings; the equality passes through matrix square roots and geometric means, which do not commute with gains, only the composite updates do", "anchors": ["ssspy/bss/ipsdta.py::GaussIPSDTA.update_once", "ssspy/bss/ipsdta.py::GaussIPSDTA.update_basis_mm", "ssspy/bss/ipsdta.py::GaussIPSDTA.update_activation_mm", "ssspy/bss/ipsdta.py::GaussIPSDTA.update_spatial_model_vcd", "ssspy/bss/ipsdta.py::GaussIPSDTA.compute_loss", "ssspy/bss/ipsdta.py::TIPSDTA.update_once", "ssspy/bss/ipsdta.py::TIPSDTA.update_basis_mm", "ssspy/bss/ipsdta.py::TIPSDTA.update_activation_mm", "ssspy/bss/ipsdta.py::TIPSDTA.compute_loss", "ssspy/bss/ipsdta.py::BlockDecompositionIPSDTABase.normalize_block_decomposition_psdtf", "ssspy/bss/ipsdta.py::IPSDTABase.__call__"]}
{"id": "C117", "title": "FastICA, FastIVA and FasterIVA see an invertible mixing of the channels only through the start", "statement": "Mix the channels of the recording by an invertible matrix (one per bin for the IVA methods): gains of microphones, another order of microphones, any change of basis. The whitened recording is then the old one times a unitary matrix U, whatever eigenvectors LAPACK returns. Called with demix_filter = W U^H on the new recording, FastICA and FastIVA return the output, the losses and the exceptions of the call with demix_filter = W on the old one; the filter they leave is the old one times U^H. FasterIVA records the same losses and returns the same output up to a phase per bin and source. With projection back, if the new reference channel is a(f) times the old reference channel, FastIVA and FasterIVA return the old output times a(f). Reordering the rows of demix_filter reorders the outputs of FastIVA and FasterIVA in the same way.", "quantifier": "every number of bins, sources, frames and iterations, every recording with positive definite sample covariance in every bin, all invertible mixings, all starting filters and orders of the sources, every contrast, score and flooring function, two arbitrary correct LAPACK implementations; FastIVA: the matrices that are orthonormalised stay invertible; FasterIVA: moreover the largest eigenvalues of the weighted covariances are simple", "why_tests_cant": "a relation between two complete runs on different recordings for all mixings; in floating point and with one LAPACK a test sees one choice of eigenvectors", "anchors": ["ssspy/transform/whiten.py::whiten", "ssspy/bss/ica.py::FastICABase.__call__", "ssspy/bss/ica.py::FastICA.update_once", "ssspy/bss/ica.py::FastICABase.compute_loss", "ssspy/bss/iva.py::FastIVA.__call__", "ssspy/bss/iva.py::FastIVA.update_once", "ssspy/bss/iva.py::FasterIVA.__call__", "ssspy/bss/iva.py::FasterIVA.update_once", "ssspy/bss/iva.py::FastIVABase.compute_loss", "ssspy/bss/iva.py::FastIVABase.apply_projection_back"]}
{"id": "C118", "title": "A call sees the microphones only through the reference channel", "statement": "Replace the microphone signals by invertible linear combinations of them, A(f) X(f), such that the reference channel of the new recording is g(f) times the reference channel of the old one (other gains, another order, other microphones in the span of the old ones). A call of AuxIVA (also AuxLaplaceIVA), AuxGaussIVA with IP1 or IP2, AuxFDICA with any setting of permutation_alignment, NaturalGradIVA, NaturalGradFDICA (and their Laplace subclasses), NaturalGradGaussIVA, GaussILRMA, TILRMA, GGDILRMA, GaussIPSDTA or TIPSDTA on the new recording with demix_filter = W(f) A(f)^-1 raises if and only if the call on the old recording with demix_filter = W does, and with the same exception. Otherwise with projection back or the minimal distortion principle its output is the old output times g(f), and its demix_filter is g(f) times the old one times A(f)^-1. Without scale restoration this holds for every invertible A(f) with g = 1. The bases, activations, latent variables and variances are the same, and every recorded loss is shifted by 2 sum_f log|det A(f)|. NaturalGradICA, which has no reference channel, returns the same output, with losses shifted by log|det A|. FastGaussMNMF with flooring_fn=None and diagonalizer = Q(f) A(f)^-1 returns the old output times g(f), the old diagonalizer times A(f)^-1, and the same basis, activation and spatial, whether these were passed or drawn.", "quantifier": "every number of bins, sources, frames and iterations, all recordings, all invertible mixings, IP1, IP2, ISS1 and ISS2 with every list of pairs, every contrast, score and flooring function, every step size, holonomic or not; for the losses: the filters stay invertible, which is proved for AuxIVA and ILRMA with a positive flooring function and linearly independent channels; ILRMA with normalisation by projection back: its reference channel is the same signal in both recordings", "why_tests_cant": "a relation between two complete calls for all recordings and all mixings, including the scale restoration", "anchors": ["ssspy/bss/iva.py::AuxIVA.__call__", "ssspy/bss/iva.py::AuxIVA.update_once", "ssspy/bss/iva.py::AuxIVA.compute_loss", "ssspy/bss/fdica.py::AuxFDICA.__call__", "ssspy/bss/ilrma.py::GaussILRMA.__call__", "ssspy/bss/ilrma.py::TILRMA.__call__", "ssspy/bss/ilrma.py::GGDILRMA.__call__", "ssspy/bss/ipsdta.py::IPSDTABase.__call__", "ssspy/bss/ipsdta.py::GaussIPSDTA.update_once", "ssspy/bss/ipsdta.py::TIPSDTA.update_once", "ssspy/algorithm/projection_back.py::projection_back", "ssspy/algorithm/minimal_distortion_principle.py::minimal_distortion_principle", "ssspy/bss/iva.py::AuxGaussIVA.update_once", "ssspy/bss/fdica.py::FDICABase.solve_permutation", "ssspy/bss/ica.py::NaturalGradICA.update_once", "ssspy/bss/iva.py::NaturalGradIVA.update_once", "ssspy/bss/fdica.py::NaturalGradFDICA.update_once", "ssspy/bss/mnmf.py::FastGaussMNMF.separate", "ssspy/bss/mnmf.py::FastGaussMNMF.update_once"]}
