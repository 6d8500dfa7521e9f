{
 "claims": [
  {
   "property": "C01",
   "status": "proved",
   "theorems": [
    "Verif.Io.C01_wav_round_trip"
   ],
   "note": ""
  },
  {
   "property": "C02",
   "status": "proved",
   "theorems": [
    "Verif.Io.C02_partial_reads_are_slices",
    "Verif.Io.C02_negative_num_frames_raises"
   ],
   "note": ""
  },
  {
   "property": "C03",
   "status": "proved",
   "theorems": [
    "Verif.Io.C03_header_consistent",
    "Verif.Io.C03_oversize_rejected"
   ],
   "note": ""
  },
  {
   "property": "C04",
   "status": "proved",
   "theorems": [
    "Verif.Io.C04_crash_never_wrong",
    "Verif.Io.C04_failed_write_never_wrong"
   ],
   "note": ""
  },
  {
   "property": "C05",
   "status": "proved",
   "theorems": [
    "Verif.Io.C05_negative_offset_reads_header",
    "Verif.Io.C05_samples_from_data_chunk"
   ],
   "note": "Finding: negative frame_offset decodes header bytes (C05_negative_offset_reads_header)."
  },
  {
   "property": "C06",
   "status": "proved",
   "theorems": [
    "Verif.Io.C06_quantisation",
    "Verif.Io.C06_one_is_wrong",
    "Verif.Io.C06_one_becomes_minus_one"
   ],
   "note": "Finding: 1.0 is written as the wrapped value (C06_one_is_wrong, C06_one_becomes_minus_one)."
  },
  {
   "property": "C07",
   "status": "proved",
   "theorems": [
    "Verif.Io.C07_wavwrite_succeeds_iff",
    "Verif.Io.C07_wavread_accepts_only_pcm"
   ],
   "note": ""
  },
  {
   "property": "C08",
   "status": "proved",
   "theorems": [
    "Verif.SelectPair.C08_pairs_valid",
    "Verif.SelectPair.C08_each_source_once_per_position",
    "Verif.SelectPair.C08_each_source_in_two_pairs",
    "Verif.SelectPair.C08_step_two_covers"
   ],
   "note": ""
  },
  {
   "property": "C09",
   "status": "proved",
   "theorems": [
    "Verif.SelectPair.C09_enumerates_all_pairs"
   ],
   "note": ""
  },
  {
   "property": "C10",
   "status": "proved",
   "theorems": [
    "Verif.Base.C10_trace",
    "Verif.Base.C10_loss_history",
    "Verif.Base.C10_loss_count",
    "Verif.Base.C10_no_record"
   ],
   "note": ""
  },
  {
   "property": "C11",
   "status": "proved",
   "theorems": [
    "Verif.Base.C11_runs_compose",
    "Verif.Base.C11_recording_is_neutral"
   ],
   "note": ""
  },
  {
   "property": "C12",
   "status": "proved",
   "theorems": [
    "Verif.Special.C12_softmax_eq",
    "Verif.Special.C12_softmax_pos",
    "Verif.Special.C12_softmax_sum",
    "Verif.Special.C12_softmax_shift",
    "Verif.Special.C12_logsumexp_eq",
    "Verif.Special.C12_logsumexp_shift",
    "Verif.Special.C12_softmax_logsumexp",
    "Verif.Special.C12_stable"
   ],
   "note": ""
  },
  {
   "property": "C13",
   "status": "proved",
   "theorems": [
    "Verif.Special.C13_floor",
    "Verif.Special.C13_posDef",
    "Verif.Special.C13_fixed",
    "Verif.Special.C13_idempotent",
    "Verif.Special.C13_nearest",
    "Verif.Special.C13_no_floor",
    "Verif.Special.C13_axes"
   ],
   "note": ""
  },
  {
   "property": "C14",
   "status": "proved",
   "theorems": [
    "Verif.Linalg.C14_l1",
    "Verif.Linalg.C14_l21",
    "Verif.Linalg.C14_neg_log",
    "Verif.Linalg.C14_neg_log_rejects",
    "Verif.Linalg.C14_neg_logdet"
   ],
   "note": ""
  },
  {
   "property": "C15",
   "status": "proved",
   "theorems": [
    "Verif.Linalg.C15_cbrt",
    "Verif.Linalg.C15_monic",
    "Verif.Linalg.C15_general",
    "Verif.Linalg.C15_raises",
    "Verif.Linalg.C15_complete"
   ],
   "note": ""
  },
  {
   "property": "C16",
   "status": "proved",
   "theorems": [
    "Verif.Linalg.C16_eigh",
    "Verif.Linalg.C16_eigh2",
    "Verif.Linalg.C16_eigh2_eq_eigh",
    "Verif.Linalg.C16_bad_type"
   ],
   "note": ""
  },
  {
   "property": "C17",
   "status": "proved",
   "theorems": [
    "Verif.Linalg.C17_gmeanmh",
    "Verif.Linalg.C17_bad_type"
   ],
   "note": ""
  },
  {
   "property": "C18",
   "status": "proved",
   "theorems": [
    "Verif.Linalg.C18_sqrtmh",
    "Verif.Linalg.C18_invsqrtmh"
   ],
   "note": ""
  },
  {
   "property": "C19",
   "status": "proved",
   "theorems": [
    "Verif.Linalg.C19_inverse",
    "Verif.Linalg.C19_shape"
   ],
   "note": ""
  },
  {
   "property": "C20",
   "status": "proved",
   "theorems": [
    "Verif.Transform.C20_identity_covariance",
    "Verif.Transform.C20_invertible_map",
    "Verif.Transform.C20_dispatch"
   ],
   "note": ""
  },
  {
   "property": "C21",
   "status": "proved",
   "theorems": [
    "Verif.Transform.C21_diagonal_covariance",
    "Verif.Transform.C21_energy"
   ],
   "note": ""
  },
  {
   "property": "C22",
   "status": "proved",
   "theorems": [
    "Verif.Scale.C22_succeeds_iff",
    "Verif.Scale.C22_scale_invariant",
    "Verif.Scale.C22_idempotent",
    "Verif.Scale.C22_reapplicable",
    "Verif.Scale.C22_permutation_equivariant",
    "Verif.Scale.C22_all_channels"
   ],
   "note": ""
  },
  {
   "property": "C23",
   "status": "proved",
   "theorems": [
    "Verif.Scale.C23_distortion_free"
   ],
   "note": ""
  },
  {
   "property": "C24",
   "status": "proved",
   "theorems": [
    "Verif.Scale.C24_data_eq_filter",
    "Verif.Scale.C24_data_eq_filter_all"
   ],
   "note": ""
  },
  {
   "property": "C25",
   "status": "proved",
   "theorems": [
    "Verif.Scale.C25_least_squares",
    "Verif.Scale.C25_scale_invariant",
    "Verif.Scale.C25_all_channels"
   ],
   "note": ""
  },
  {
   "property": "C26",
   "status": "proved",
   "theorems": [
    "Verif.Lifecycle.C26_filter_methods",
    "Verif.Lifecycle.C26_filter_free",
    "Verif.Lifecycle.C26_fast",
    "Verif.Lifecycle.C26_fast_mdp",
    "Verif.Lifecycle.C26_fast_mdp_counterexample",
    "Verif.Lifecycle.C26_apply"
   ],
   "note": "Finding: FastIVA/FasterIVA with minimal distortion principle (C26_fast_mdp, C26_fast_mdp_counterexample)."
  },
  {
   "property": "C27",
   "status": "proved",
   "theorems": [
    "Verif.Permutation.C27_correlation",
    "Verif.Permutation.C27_score",
    "Verif.Permutation.C27_score_global_iter_zero_counterexample",
    "Verif.Permutation.C27_score_multi_centroids"
   ],
   "note": "Finding: global_iter=0 raises NameError (C27_score_global_iter_zero_counterexample)."
  },
  {
   "property": "C28",
   "status": "proved",
   "theorems": [
    "Verif.Permutation.C28_greedy_optimal",
    "Verif.Permutation.C28_idempotent"
   ],
   "note": ""
  },
  {
   "property": "C29",
   "status": "proved",
   "theorems": [
    "Verif.Overwrite.C29_ip1",
    "Verif.Overwrite.C29_ip2",
    "Verif.Overwrite.C29_vcd",
    "Verif.Overwrite.C29_ip1_error",
    "Verif.Permutation.C29_correlation",
    "Verif.Permutation.C29_score",
    "Verif.Permutation.C29_score_sequence_counterexample"
   ],
   "note": "Finding: score_based_permutation_solver ignores overwrite for the sequence (C29_score_sequence_counterexample)."
  },
  {
   "property": "C30",
   "status": "proved",
   "theorems": [
    "Verif.Spatial.C30_decorrelates",
    "Verif.Spatial.C30_normalises",
    "Verif.Spatial.C30_norm_le"
   ],
   "note": ""
  },
  {
   "property": "C31",
   "status": "proved",
   "theorems": [
    "Verif.Spatial.C31_sweep",
    "Verif.Spatial.C31_row_optimal"
   ],
   "note": ""
  },
  {
   "property": "C32",
   "status": "proved",
   "theorems": [
    "Verif.Spatial.C32_sweep",
    "Verif.Spatial.C32_pair_optimal"
   ],
   "note": ""
  },
  {
   "property": "C33",
   "status": "proved",
   "theorems": [
    "Verif.Spatial.C33_iss1",
    "Verif.Spatial.C33_steps_optimal"
   ],
   "note": ""
  },
  {
   "property": "C34",
   "status": "proved",
   "theorems": [
    "Verif.Spatial.C34_iss2",
    "Verif.Spatial.C34_steps_optimal"
   ],
   "note": ""
  },
  {
   "property": "C35",
   "status": "proved",
   "theorems": [
    "Verif.Spatial.C35_step_optimal",
    "Verif.Spatial.C35_sweep"
   ],
   "note": ""
  },
  {
   "property": "C36",
   "status": "proved",
   "theorems": [
    "Verif.Iva.C36_gauss_ip2",
    "Verif.Iva.C36_gauss_iss1",
    "Verif.Iva.C36_gauss_iss2",
    "Verif.Iva.C36_auxiva_ip1",
    "Verif.Iva.C36_auxiva_ip2",
    "Verif.Iva.C36_auxiva_iss1",
    "Verif.Iva.C36_auxiva_iss2",
    "Verif.Iva.C36_laplace_ip1",
    "Verif.Iva.C36_gauss_ip1",
    "Verif.Iva.C36_laplace_ip2",
    "Verif.Iva.C36_laplace_iss1",
    "Verif.Iva.C36_laplace_iss2"
   ],
   "note": ""
  },
  {
   "property": "C37",
   "status": "proved",
   "theorems": [
    "Verif.Fdica.C37_auxfdica_ip1",
    "Verif.Fdica.C37_auxfdica_ip2",
    "Verif.Fdica.C37_laplace_ip1",
    "Verif.Fdica.C37_laplace_ip2"
   ],
   "note": ""
  },
  {
   "property": "C38",
   "status": "proved",
   "theorems": [
    "Verif.Ilrma.C38_gauss_mm",
    "Verif.Ilrma.C38_gauss_me",
    "Verif.Ilrma.C38_gauss_mm_iss",
    "Verif.Ilrma.C38_gauss_max_flooring",
    "Verif.Ilrma.C38_gauss_me_iss"
   ],
   "note": ""
  },
  {
   "property": "C39",
   "status": "proved",
   "theorems": [
    "Verif.Ilrma.C39_student_mm",
    "Verif.Ilrma.C39_student_me",
    "Verif.Ilrma.C39_ggd",
    "Verif.Ilrma.C39_student_mm_iss",
    "Verif.Ilrma.C39_ggd_iss",
    "Verif.Ilrma.C39_student_max_flooring",
    "Verif.Ilrma.C39_student_me_iss"
   ],
   "note": ""
  },
  {
   "property": "C40",
   "status": "proved",
   "theorems": [
    "Verif.Ilrma.C40_loss",
    "Verif.Ilrma.C40_projection_back",
    "Verif.Ilrma.C40_mdp",
    "Verif.Ilrma.C40_partitioned",
    "Verif.Ilrma.C40_partitioned_projection_back",
    "Verif.Ilrma.C40_loss_signal",
    "Verif.Ilrma.C40_power_one",
    "Verif.Ilrma.C40_power_one_partitioned",
    "Verif.Ilrma.C40_power_one_iss",
    "Verif.Ilrma.C40_power_one_iss_partitioned",
    "Verif.Ilrma.C40_power_one_ipa",
    "Verif.Ilrma.C40_power_one_ipa_partitioned",
    "Verif.Ilrma.C40_projection_back_sum",
    "Verif.Ilrma.C40_projection_back_sum_iss",
    "Verif.Ilrma.C40_projection_back_sum_ipa"
   ],
   "note": ""
  },
  {
   "property": "C41",
   "status": "proved",
   "theorems": [
    "Verif.Ilrma.C41_floor",
    "Verif.Ilrma.C41_positive",
    "Verif.Ilrma.C41_normalisation_breaks_floor",
    "Verif.Ilrma.C41_latent",
    "Verif.Ipsdta.C41_gaussIpsdta",
    "Verif.Ipsdta.C41_tIpsdta",
    "Verif.Mnmf.C41_fastMnmf",
    "Verif.Mnmf.C41_fastMnmf_spatial",
    "Verif.Mnmf.C41_gaussMnmf",
    "Verif.Mnmf.C41_gaussMnmf_partitioned"
   ],
   "note": ""
  },
  {
   "property": "C42",
   "status": "proved",
   "theorems": [
    "Verif.Mnmf.C42_normalise",
    "Verif.Mnmf.C42_fast_mnmf"
   ],
   "note": ""
  },
  {
   "property": "C43",
   "status": "proved",
   "theorems": [
    "Verif.Mnmf.C43_gauss_mnmf",
    "Verif.Mnmf.C43_gauss_mnmf_unfloored",
    "Verif.Mnmf.C43_fast_mnmf",
    "Verif.Mnmf.C43_fast_mnmf_unfloored"
   ],
   "note": ""
  },
  {
   "property": "C44",
   "status": "proved",
   "theorems": [
    "Verif.Mnmf.C44_unchanged",
    "Verif.Mnmf.C44_unit_trace",
    "Verif.Mnmf.C44_partitioned"
   ],
   "note": ""
  },
  {
   "property": "C45",
   "status": "proved",
   "theorems": [
    "Verif.Cacgmm.C45_call",
    "Verif.Cacgmm.C45_separate"
   ],
   "note": ""
  },
  {
   "property": "C46",
   "status": "proved",
   "theorems": [
    "Verif.Cacgmm.C46_normalise",
    "Verif.Cacgmm.C46_em",
    "Verif.Cacgmm.C46_unfloored"
   ],
   "note": ""
  },
  {
   "property": "C47",
   "status": "proved",
   "theorems": [
    "Verif.Fast.C47_fastica",
    "Verif.Fast.C47_fastica_run",
    "Verif.Fast.C47_polar_unitary",
    "Verif.Fast.C47_polar_eq",
    "Verif.Fast.C47_fastiva",
    "Verif.Fast.C47_fasteriva",
    "Verif.Fast.C47_fastiva_output",
    "Verif.Fast.C47_fasteriva_output"
   ],
   "note": ""
  },
  {
   "property": "C48",
   "status": "proved",
   "theorems": [
    "Verif.Grad.C48_equivariant",
    "Verif.Grad.C48_equivariant_gauss"
   ],
   "note": ""
  },
  {
   "property": "C49",
   "status": "proved",
   "theorems": [
    "Verif.Lifecycle.C49_filter_free_counterexample",
    "Verif.Lifecycle.C49_filter"
   ],
   "note": "Finding: a second call after ISS/IPA raises (C49_filter_free_counterexample)."
  },
  {
   "property": "C50",
   "status": "proved",
   "theorems": [
    "Verif.ProxBss.C50_filter_equation",
    "Verif.ProxBss.C50_minimiser_iff",
    "Verif.ProxBss.C50_not_minimiser",
    "Verif.ProxBss.C50_masking",
    "Verif.ProxBss.C50_fixed_point",
    "Verif.ProxBss.C50_fixed_stationary",
    "Verif.ProxBss.C50_fixed_not_stationary"
   ],
   "note": "Finding: the ADMM system is solved from the wrong side (C50_not_minimiser, C50_fixed_not_stationary)."
  },
  {
   "property": "C51",
   "status": "proved",
   "theorems": [
    "Verif.ProxBss.C51_fixed_point",
    "Verif.ProxBss.C51_optimal_is_fixed",
    "Verif.ProxBss.C51_fixed_is_stationary",
    "Verif.ProxBss.C51_stationary_is_fixed",
    "Verif.ProxBss.C51_stationary_no_descent",
    "Verif.ProxBss.C51_iva_prox",
    "Verif.ProxBss.C51_pdsiva",
    "Verif.ProxBss.C51_masking"
   ],
   "note": ""
  },
  {
   "property": "C52",
   "status": "proved",
   "theorems": [
    "Verif.Hva.C52_mask",
    "Verif.Hva.C52_no_gain",
    "Verif.Hva.C52_gain_invariant",
    "Verif.Hva.C52_permutation",
    "Verif.Hva.C52_attenuation_kept",
    "Verif.Hva.C52_single_bin",
    "Verif.Hva.C52_liftering",
    "Verif.Hva.C52_wiener"
   ],
   "note": ""
  },
  {
   "property": "C53",
   "status": "proved",
   "theorems": [
    "Verif.Ipsdta.C53_join",
    "Verif.Ipsdta.C53_split",
    "Verif.Ipsdta.C53_sizes",
    "Verif.Ipsdta.C53_no_blocks"
   ],
   "note": ""
  },
  {
   "property": "C54",
   "status": "proved",
   "theorems": [
    "Verif.Dataset.C54_requested",
    "Verif.Dataset.C54_first_wins",
    "Verif.Dataset.C54_invalid",
    "Verif.Dataset.C54_invalid_duration",
    "Verif.Dataset.C54_convolution",
    "Verif.Dataset.C54_stale"
   ],
   "note": ""
  },
  {
   "property": "C55",
   "status": "proved",
   "theorems": [
    "Verif.Lqpqm.C55_scaled",
    "Verif.Lqpqm.C55_minimiser",
    "Verif.Lqpqm.C55_converges",
    "Verif.Lqpqm.C55_no_iteration",
    "Verif.Lqpqm.C55_two_sources",
    "Verif.Lqpqm.C55_singular_two_sources",
    "Verif.Lqpqm.C55_scale_defect",
    "Verif.Lqpqm.C55_singular_defect"
   ],
   "note": "Finding: v is divided by the largest eigenvalue without need (C55_scale_defect); the singular case uses a row of the eigenvectors (C55_singular_defect)."
  },
  {
   "property": "C56",
   "status": "proved",
   "theorems": [
    "Verif.Mnmf.C56_gauss_mnmf",
    "Verif.Mnmf.C56_no_flooring",
    "Verif.Mnmf.C56_unfloored"
   ],
   "note": ""
  },
  {
   "property": "C57",
   "status": "proved",
   "theorems": [
    "Verif.Grad.C57_natural_descent",
    "Verif.Grad.C57_gradient_descent",
    "Verif.Grad.C57_fixed_iff_stationary",
    "Verif.Grad.C57_laplace_ica",
    "Verif.Grad.C57_laplace_fdica",
    "Verif.Grad.C57_laplace_iva",
    "Verif.Grad.C57_gauss_iva",
    "Verif.Grad.C57_gradient_nonholonomic_ascent",
    "Verif.Grad.C57_gauss_natural_update",
    "Verif.Grad.C57_gauss_gradient_update"
   ],
   "note": "Finding: plain gradient with is_holonomic=False can ascend (C57_gradient_nonholonomic_ascent)."
  },
  {
   "property": "C58",
   "status": "proved",
   "theorems": [
    "Verif.ProxBss.C58_recorded",
    "Verif.ProxBss.C58_default_not_recorded",
    "Verif.ProxBss.C58_default_runs",
    "Verif.ProxBss.C58_masking_raises",
    "Verif.ProxBss.C58_no_penalty"
   ],
   "note": "Finding: default record_loss=None records nothing; masking variants raise TypeError when recording."
  },
  {
   "property": "C59",
   "status": "proved",
   "theorems": [
    "Verif.Ipsdta.C59_gauss"
   ],
   "note": ""
  },
  {
   "property": "C60",
   "status": "proved",
   "theorems": [
    "Verif.Ipsdta.C60_t"
   ],
   "note": ""
  },
  {
   "property": "C61",
   "status": "proved",
   "theorems": [
    "Verif.Iva.C61_gauss_ip2_two",
    "Verif.Iva.C61_gauss_iss1",
    "Verif.Iva.C61_gauss_iss2_two",
    "Verif.Iva.C61_gauss_ipa_two",
    "Verif.Iva.C61_ip1",
    "Verif.Iva.C61_iss1",
    "Verif.Iva.C61_ip2_pair",
    "Verif.Iva.C61_ip2",
    "Verif.Iva.C61_iss2",
    "Verif.Iva.C61_laplace_ip1",
    "Verif.Iva.C61_laplace_iss1",
    "Verif.Iva.C61_laplace_ip2_two",
    "Verif.Iva.C61_laplace_iss2_two",
    "Verif.Iva.C61_gauss_ip1",
    "Verif.Iva.C61_ipa_two",
    "Verif.Iva.C61_laplace_ipa_two"
   ],
   "note": ""
  },
  {
   "property": "C62",
   "status": "proved",
   "theorems": [
    "Verif.Fdica.C62_ip1",
    "Verif.Fdica.C62_ip2_pair",
    "Verif.Fdica.C62_ip2",
    "Verif.Fdica.C62_laplace_ip1"
   ],
   "note": ""
  },
  {
   "property": "C63",
   "status": "proved",
   "theorems": [
    "Verif.Ilrma.C63_ipa_two",
    "Verif.Ilrma.C63_gauss_ipa_two",
    "Verif.Ilrma.C63_gauss_me_iss",
    "Verif.Ilrma.C63_student_me_iss",
    "Verif.Ilrma.C63_ip1",
    "Verif.Ilrma.C63_ip1_fixed",
    "Verif.Ilrma.C63_iss1",
    "Verif.Ilrma.C63_ip2",
    "Verif.Ilrma.C63_iss2",
    "Verif.Ilrma.C63_gauss_mm",
    "Verif.Ilrma.C63_gauss_me",
    "Verif.Ilrma.C63_student_mm",
    "Verif.Ilrma.C63_student_me",
    "Verif.Ilrma.C63_ggd",
    "Verif.Ilrma.C63_gauss_mm_iss",
    "Verif.Ilrma.C63_student_mm_iss",
    "Verif.Ilrma.C63_ggd_iss"
   ],
   "note": ""
  },
  {
   "property": "C64",
   "status": "proved",
   "theorems": [
    "Verif.Mnmf.C64_fast_mnmf",
    "Verif.Mnmf.C64_fixed",
    "Verif.Mnmf.C64_no_flooring"
   ],
   "note": ""
  },
  {
   "property": "C65",
   "status": "proved",
   "theorems": [
    "Verif.Cacgmm.C65_cacgmm",
    "Verif.Cacgmm.C65_fixed",
    "Verif.Cacgmm.C65_unfloored"
   ],
   "note": ""
  },
  {
   "property": "C66",
   "status": "proved",
   "theorems": [
    "Verif.Mnmf.C66_gauss_mnmf",
    "Verif.Mnmf.C66_fixed",
    "Verif.Mnmf.C66_no_flooring"
   ],
   "note": ""
  },
  {
   "property": "C67",
   "status": "proved",
   "theorems": [
    "Verif.Ipsdta.C67_gauss",
    "Verif.Ipsdta.C67_t"
   ],
   "note": ""
  },
  {
   "property": "C68",
   "status": "proved",
   "theorems": [
    "Verif.Iva.C68_gauss_run",
    "Verif.Iva.C68_gauss_two_sources_run",
    "Verif.Iva.C68_gauss_two_sources",
    "Verif.Ilrma.C68_gauss_ilrma",
    "Verif.Ilrma.C68_gauss_me_ilrma",
    "Verif.Ilrma.C68_gauss_ilrma_two_sources",
    "Verif.Spatial.C68_two_sources_step",
    "Verif.Spatial.C68_two_sources_sweep",
    "Verif.Spatial.C68_step",
    "Verif.Spatial.C68_sweep",
    "Verif.Iva.C68_run",
    "Verif.Iva.C68_two_sources_run",
    "Verif.Iva.C68_two_sources",
    "Verif.Iva.C68_laplace_two_sources",
    "Verif.Spatial.C68_enough_newton"
   ],
   "note": ""
  },
  {
   "property": "C69",
   "status": "proved",
   "theorems": [
    "Verif.Ilrma.C69_basis",
    "Verif.Ilrma.C69_activation",
    "Verif.Ilrma.C69_latent_compensated",
    "Verif.Ilrma.C69_latent_balanced",
    "Verif.Ilrma.C69_spatial",
    "Verif.Ilrma.C69_spatial_signal",
    "Verif.Ilrma.C69_spatial_ipa",
    "Verif.Ilrma.C69_iteration",
    "Verif.Ilrma.C69_iteration_signal",
    "Verif.Ilrma.C69_iteration_ipa",
    "Verif.Ilrma.C69_loss_can_increase",
    "Verif.Ilrma.C69_iteration_can_increase"
   ],
   "note": ""
  },
  {
   "property": "C70",
   "status": "proved",
   "theorems": [
    "Verif.Iva.C70_ip1",
    "Verif.Iva.C70_iss1",
    "Verif.Iva.C70_ip2_two",
    "Verif.Iva.C70_iss2_two",
    "Verif.Iva.C70_laplace_ip1",
    "Verif.Iva.C70_laplace_iss1",
    "Verif.Iva.C70_gauss_ip1",
    "Verif.Fdica.C70_ip1",
    "Verif.Fdica.C70_ip2_two",
    "Verif.Fdica.C70_laplace_ip1"
   ],
   "note": ""
  },
  {
   "property": "C71",
   "status": "proved",
   "theorems": [
    "Verif.Iva.C71_ip1",
    "Verif.Iva.C71_ip2",
    "Verif.Iva.C71_gauss_ip1",
    "Verif.Iva.C71_gauss_ip2",
    "Verif.Iva.C71_ip1_outcome",
    "Verif.Fdica.C71_ip1",
    "Verif.Fdica.C71_ip2",
    "Verif.Ilrma.C71_ilrma",
    "Verif.Ilrma.C71_ilrma_partitioned",
    "Verif.Ilrma.C71_ilrma_outcome",
    "Verif.Mnmf.C71_fast",
    "Verif.Ipsdta.C71_gauss",
    "Verif.Ipsdta.C71_gauss_outcome",
    "Verif.Ipsdta.C71_t",
    "Verif.Ipsdta.C71_gauss_loss",
    "Verif.Ipsdta.C71_t_loss"
   ],
   "note": ""
  },
  {
   "property": "C72",
   "status": "proved",
   "theorems": [
    "Verif.Iva.C72_laplace_ip1",
    "Verif.Iva.C72_gauss_ip1",
    "Verif.Iva.C72_laplace_iss1",
    "Verif.Iva.C72_gauss_iss1",
    "Verif.Fdica.C72_laplace_ip1",
    "Verif.Fdica.C72_laplace_ip1_aligned",
    "Verif.Fdica.C72_laplace_ip1_call",
    "Verif.LevelCall.C72_laplaceIva_call",
    "Verif.LevelCall.C72_gaussIva_call",
    "Verif.LevelCall.C72_laplaceIva_signal_call"
   ],
   "note": ""
  },
  {
   "property": "C73",
   "status": "proved",
   "theorems": [
    "Verif.C73_finish",
    "Verif.C73_finishFree",
    "Verif.Iva.C73_ip1",
    "Verif.Iva.C73_ip2",
    "Verif.Iva.C73_iss1",
    "Verif.Iva.C73_iss2",
    "Verif.Iva.C73_gauss_ip1",
    "Verif.Iva.C73_gauss_ip2",
    "Verif.Iva.C73_loss",
    "Verif.Iva.C73_laplace_call",
    "Verif.Fdica.C73_ip1",
    "Verif.Fdica.C73_ip2",
    "Verif.Grad.C73_natural",
    "Verif.Grad.C73_laplace_iva",
    "Verif.Grad.C73_laplace_fdica",
    "Verif.Ilrma.C73_ilrma",
    "Verif.Ilrma.C73_ilrma_iss",
    "Verif.Ilrma.C73_ilrma_partitioned",
    "Verif.Ilrma.C73_ilrma_loss",
    "Verif.Mnmf.C73_fast",
    "Verif.Cacgmm.C73_posterior",
    "Verif.Cacgmm.C73_iterate",
    "Verif.Cacgmm.C73_loss",
    "Verif.Mnmf.C73_mnmf",
    "Verif.Mnmf.C73_mnmf_loss",
    "Verif.Mnmf.C73_mnmf_separate",
    "Verif.Mnmf.C73_mnmf_partitioned",
    "Verif.Ipsdta.C73_gauss",
    "Verif.Ipsdta.C73_t",
    "Verif.Ipsdta.C73_gauss_loss",
    "Verif.Ipsdta.C73_t_loss",
    "Verif.Iva.C73_ipa",
    "Verif.Iva.C73_gauss_iss1",
    "Verif.Iva.C73_gauss_iss2",
    "Verif.Iva.C73_gauss_ipa",
    "Verif.Iva.C73_loss_free",
    "Verif.Fdica.C73_loss",
    "Verif.Grad.C73_gradient",
    "Verif.Grad.C73_gradient_laplace",
    "Verif.Grad.C73_gradient_gauss",
    "Verif.Grad.C73_loss",
    "Verif.Fast.C73_whitened",
    "Verif.Fast.C73_fast_iva",
    "Verif.Fast.C73_fast_iva_loss",
    "Verif.Ilrma.C73_ilrma_partitioned_iss",
    "Verif.Ilrma.C73_ilrma_ipa",
    "Verif.Ilrma.C73_ilrma_partitioned_ipa",
    "Verif.Ilrma.C73_ilrma_losses",
    "Verif.Mnmf.C73_fast_loss",
    "Verif.Mnmf.C73_fast_separate"
   ],
   "note": "For GaussMNMF reorderings only: with repetitions both sums of the spatial update grow by the same factor, and the flooring inside its matrix square roots sees it. All other classes: reorderings and repetitions."
  },
  {
   "property": "C74",
   "status": "proved",
   "theorems": [
    "Verif.Fast.C74_fastica_fixed_iff",
    "Verif.Fast.C74_fastica_separated",
    "Verif.Fast.C74_fastica_quadratic",
    "Verif.Fast.C74_fastiva_stationary",
    "Verif.Fast.C74_fastiva_fixed",
    "Verif.Fast.C74_fastiva_separated",
    "Verif.Fast.C74_fastiva_quadratic"
   ],
   "note": ""
  },
  {
   "property": "C75",
   "status": "proved",
   "theorems": [
    "Verif.Fast.C75_fasteriva_maximises",
    "Verif.Fast.C75_fasteriva_undoes_separation"
   ],
   "note": ""
  },
  {
   "property": "C76",
   "status": "proved",
   "theorems": [
    "Verif.Mnmf.C76_fast_mnmf",
    "Verif.Mnmf.C76_fast_mnmf_no_flooring",
    "Verif.Ilrma.C76_ip1",
    "Verif.Ilrma.C76_iss1",
    "Verif.Ilrma.C76_ip2_two",
    "Verif.Ilrma.C76_iss2_two"
   ],
   "note": ""
  },
  {
   "property": "C77",
   "status": "proved",
   "theorems": [
    "Verif.Cacgmm.C77_cacgmm",
    "Verif.Cacgmm.C77_cacgmm_no_flooring",
    "Verif.Mnmf.C77_gauss_mnmf",
    "Verif.Mnmf.C77_gauss_mnmf_no_flooring"
   ],
   "note": ""
  },
  {
   "property": "C78",
   "status": "proved",
   "theorems": [
    "Verif.Mnmf.C78_basis",
    "Verif.Mnmf.C78_activation",
    "Verif.Mnmf.C78_spatial",
    "Verif.Mnmf.C78_latent",
    "Verif.Mnmf.C78_update_once",
    "Verif.Mnmf.C78_runs",
    "Verif.Mnmf.C78_latent_can_increase",
    "Verif.Mnmf.C78_loss_can_increase"
   ],
   "note": ""
  },
  {
   "property": "C79",
   "status": "proved",
   "theorems": [
    "Verif.EigFree.C79_to_psd",
    "Verif.EigFree.C79_sqrtmh",
    "Verif.EigFree.C79_invsqrtmh",
    "Verif.EigFree.C79_gmeanmh",
    "Verif.EigFree.C79_neg_logdet",
    "Verif.EigFree.C79_neg_logdet_singular",
    "Verif.EigFree.C79_fast_iva",
    "Verif.EigFree.C79_cacgmm",
    "Verif.EigFree.C79_gauss_mnmf",
    "Verif.EigFree.C79_gauss_mnmf_partitioned",
    "Verif.EigFree.C79_fast_mnmf",
    "Verif.EigFree.C79_gauss_ipsdta",
    "Verif.EigFree.C79_t_ipsdta"
   ],
   "note": ""
  },
  {
   "property": "C80",
   "status": "proved",
   "theorems": [
    "Verif.EigPhase.C80_aux_iva_ip2",
    "Verif.EigPhase.C80_aux_gauss_iva_ip2",
    "Verif.EigPhase.C80_aux_fdica_ip2",
    "Verif.EigPhase.C80_ilrma_ip2",
    "Verif.EigPhase.C80_ilrma_ip2_partitioned",
    "Verif.EigPhase.C80_fast_mnmf_ip2",
    "Verif.EigPhase.C80_aux_iva_iss2",
    "Verif.EigPhase.C80_aux_gauss_iva_iss2",
    "Verif.EigPhase.C80_ilrma_iss2",
    "Verif.EigPhase.C80_ilrma_iss2_partitioned",
    "Verif.EigPhase.C80_tie",
    "Verif.EigPhase.C80_whiten",
    "Verif.EigPhase.C80_whiten_distinct",
    "Verif.EigPhase.C80_pca_distinct",
    "Verif.EigPhase.C80_fastica",
    "Verif.EigPhase.C80_fast_iva",
    "Verif.EigPhase.C80_faster_iva"
   ],
   "note": "Regularity of the visited states is a hypothesis (positive definite weighted covariances, no tie), with C80_tie showing that it is needed; each theorem has an example meeting it. FastICA, FastIVA and FasterIVA need distinct eigenvalues of the data covariance. The FastIVA filter before orthonormalisation must be invertible at the visited states."
  },
  {
   "property": "C81",
   "status": "proved",
   "theorems": [
    "Verif.Permutation.C81_steps",
    "Verif.Permutation.C81_level_invariant",
    "Verif.Permutation.C81_equal_spread",
    "Verif.Permutation.C81_wrong_spread"
   ],
   "note": "local_iter > 0 with global_iter = 0 is excluded (NameError, C27). Constant sequences are not excluded but divide by a standard deviation of zero, which the model evaluates as 0 (DESIGN.md, division)."
  },
  {
   "property": "C82",
   "status": "proved",
   "theorems": [
    "Verif.Flooring.C82_aux",
    "Verif.Flooring.C82_ilrma",
    "Verif.Flooring.C82_normalize",
    "Verif.Flooring.C82_none",
    "Verif.Flooring.C82_refused",
    "Verif.Flooring.C82_no_method",
    "Verif.Flooring.C82_functions"
   ],
   "note": "C82_none is the finding. The partitioned and signal-based variants of ILRMA, MNMF, IPSDTA and the fast methods call choose_flooring_fn in the same way but are not modelled with the argument."
  },
  {
   "property": "C83",
   "status": "proved",
   "theorems": [
    "Verif.C83_finish",
    "Verif.C83_finishFree",
    "Verif.Iva.C83_ip1",
    "Verif.Iva.C83_ip2",
    "Verif.Iva.C83_iss1",
    "Verif.Iva.C83_iss2",
    "Verif.Iva.C83_gauss_ip1",
    "Verif.Iva.C83_gauss_ip2",
    "Verif.Iva.C83_gauss_iss1",
    "Verif.Iva.C83_gauss_iss2",
    "Verif.Iva.C83_loss",
    "Verif.Iva.C83_call",
    "Verif.Fdica.C83_ip1",
    "Verif.Fdica.C83_ip2",
    "Verif.Grad.C83_gradient",
    "Verif.Grad.C83_laplace",
    "Verif.Ilrma.C83_ilrma",
    "Verif.Ilrma.C83_ilrma_partitioned",
    "Verif.Ilrma.C83_ilrma_iss",
    "Verif.Ilrma.C83_ilrma_partitioned_iss",
    "Verif.Ilrma.C83_ilrma_loss",
    "Verif.Mnmf.C83_fast",
    "Verif.Mnmf.C83_fast_loss",
    "Verif.Mnmf.C83_fast_output",
    "Verif.Mnmf.C83_instant_covariance",
    "Verif.Mnmf.C83_gauss_mnmf",
    "Verif.Mnmf.C83_gauss_mnmf_output",
    "Verif.Cacgmm.C83_cacgmm",
    "Verif.Fast.C83_fast_iva",
    "Verif.Fast.C83_faster_iva",
    "Verif.Fast.C83_fast_iva_loss",
    "Verif.Iva.C83_ipa",
    "Verif.Ilrma.C83_ilrma_ipa",
    "Verif.Iva.C83_gauss_ipa",
    "Verif.Iva.C83_gauss_loss",
    "Verif.Fdica.C83_loss",
    "Verif.Grad.C83_gradient_gauss",
    "Verif.Grad.C83_gradient_loss",
    "Verif.Ilrma.C83_ilrma_partitioned_ipa"
   ],
   "note": "IPSDTA is left out: with several bins in one block its covariances see relative phases between bins. The initial signal of the signal-based variants is assumed to carry the factors, which it does since it is the demixing filter applied to the input."
  },
  {
   "property": "C84",
   "status": "proved",
   "theorems": [
    "Verif.Fdica.C84_finish",
    "Verif.Fdica.C84_reorders",
    "Verif.Fdica.C84_off",
    "Verif.Fdica.C84_unknown",
    "Verif.Fdica.C84_loss",
    "Verif.Fdica.C84_initial_order"
   ],
   "note": "The last sentence is for score functions that treat the sources one by one (such as that of NaturalGradLaplaceFDICA); AuxFDICA updates the sources one after the other, so there the initial order does matter to the iterates."
  },
  {
   "property": "C85",
   "status": "proved",
   "theorems": [
    "Verif.Cacgmm.C85_posterior_score",
    "Verif.Cacgmm.C85_amplitude_score",
    "Verif.Cacgmm.C85_amplitude_correlation",
    "Verif.Cacgmm.C85_call",
    "Verif.Cacgmm.C85_initial",
    "Verif.Cacgmm.C85_result",
    "Verif.Cacgmm.C85_posterior_correlation",
    "Verif.Cacgmm.C85_unknown",
    "Verif.Cacgmm.C85_global_iter_zero",
    "Verif.Cacgmm.C85_keywords",
    "Verif.Cacgmm.C85_zero_draw",
    "Verif.Cacgmm.C85_no_resume"
   ],
   "note": "What alignment by score optimises is C81, by correlation C28. Division by a zero standard deviation (a constant posterior) and by a zero sum of random numbers gives NaN in numpy and is not modelled."
  },
  {
   "property": "C86",
   "status": "proved",
   "theorems": [
    "Verif.IlrmaCall.C86_initial",
    "Verif.IlrmaCall.C86_initial_signal",
    "Verif.IlrmaCall.C86_initial_partitioned",
    "Verif.IlrmaCall.C86_initial_signal_partitioned",
    "Verif.IlrmaCall.C86_latent_sum",
    "Verif.IlrmaCall.C86_latent_not_one",
    "Verif.IlrmaCall.C86_call",
    "Verif.IlrmaCall.C86_resume",
    "Verif.IlrmaCall.C86_resume_partitioned",
    "Verif.IlrmaCall.C86_resume_projection_back",
    "Verif.IlrmaCall.C86_resume_loss",
    "Verif.IlrmaCall.C86_resume_increases",
    "Verif.IlrmaCall.C86_none"
   ],
   "note": "Calls keep record_loss at its default and have no callbacks. Exact resuming is proved for IP1 and IP2; the jump of the loss for GaussILRMA with IP1."
  },
  {
   "property": "C87",
   "status": "proved",
   "theorems": [
    "Verif.MnmfCall.C87_gauss_returns",
    "Verif.MnmfCall.C87_denominators",
    "Verif.MnmfCall.C87_partitioned_returns",
    "Verif.MnmfCall.C87_fast_returns",
    "Verif.MnmfCall.C87_fast_descent",
    "Verif.MnmfCall.C87_resume",
    "Verif.MnmfCall.C87_resume_partitioned",
    "Verif.MnmfCall.C87_resume_fast"
   ],
   "note": "Exact arithmetic; record_loss at its default, no callbacks. The flooring of eigenvalues inside to_psd is modelled (C79)."
  },
  {
   "property": "C88",
   "status": "proved",
   "theorems": [
    "Verif.FlooredCall.C88_returns",
    "Verif.FlooredCall.C88_returns_signal",
    "Verif.FlooredCall.C88_returns_partitioned",
    "Verif.FlooredCall.C88_returns_signal_partitioned",
    "Verif.FlooredCall.C88_denominators",
    "Verif.FlooredCall.C88_projection_back_silences",
    "Verif.FlooredCall.C88_iva_returns",
    "Verif.FlooredCall.C88_iva_returns_signal",
    "Verif.FlooredCall.C88_fdica_returns",
    "Verif.FlooredCall.C88_gauss_silent_frame"
   ],
   "note": "Exact arithmetic; record_loss at its default, no callbacks. IPA is not covered. The drawn numbers may be zero. The two exceptions are C88_projection_back_silences and C88_gauss_silent_frame."
  },
  {
   "property": "C89",
   "status": "proved",
   "theorems": [
    "Verif.IvaCall.C89_keyword",
    "Verif.IvaCall.C89_resume",
    "Verif.IvaCall.C89_resume_signal",
    "Verif.IvaCall.C89_call",
    "Verif.IvaCall.C89_call_signal",
    "Verif.IvaCall.C89_gauss_resume",
    "Verif.IvaCall.C89_gauss_initial_loss",
    "Verif.IvaCall.C89_gauss_call",
    "Verif.IvaCall.C89_gauss_initial_call",
    "Verif.Fdica.C89_fdica_alignment",
    "Verif.Fdica.C89_fdica_keyword",
    "Verif.Fdica.C89_fdica_resume",
    "Verif.Fdica.C89_fdica_call",
    "Verif.Fdica.C89_fdica_rescaled"
   ],
   "note": "Exact arithmetic; record_loss at its default, no callbacks, IPA left out. C89_gauss_initial_call is the finding (a larger loss is recorded although nothing changed). In C89_fdica_rescaled division by a zero magnitude is the model's 0, numpy gives inf there."
  },
  {
   "property": "C90",
   "status": "proved",
   "theorems": [
    "Verif.ProxBss.C90_pds_resume",
    "Verif.ProxBss.C90_pds_returns",
    "Verif.ProxBss.C90_pds_keyword",
    "Verif.ProxBss.C90_admm_resume",
    "Verif.ProxBss.C90_admm_keyword",
    "Verif.ProxBss.C90_admm_first",
    "Verif.ProxBss.C90_admm_two",
    "Verif.ProxBss.C90_masking_pds",
    "Verif.ProxBss.C90_masking_admm",
    "Verif.ProxBss.C90_pds_rescaled"
   ],
   "note": "Exact arithmetic, no callbacks, demix_filter=None and dual=None left out. In the model the loss of a zero filter is finite (log 0 = 0), numpy records inf there; the statements about ADMM losses only compare equal runs. Findings: C90_admm_keyword, C90_admm_first, C90_pds_rescaled."
  },
  {
   "property": "C91",
   "status": "proved",
   "theorems": [
    "Verif.ProxBss.C91_step_sizes",
    "Verif.ProxBss.C91_metric",
    "Verif.ProxBss.C91_scalar",
    "Verif.ProxBss.C91_level",
    "Verif.ProxBss.C91_fails_iff"
   ],
   "note": "np.linalg.norm(ord=2) is the operator norm of the exact matrix; a zero divisor, NaN in numpy, counts as failure."
  },
  {
   "property": "C92",
   "status": "proved",
   "theorems": [
    "Verif.Config.C92_accepts",
    "Verif.Config.C92_returns_iff",
    "Verif.Config.C92_late_error",
    "Verif.Config.C92_ipsdta_unimplemented",
    "Verif.Config.C92_aliases",
    "Verif.Config.C92_named_updates"
   ],
   "note": "Control flow only: the numerical updates are arbitrary functions that do not raise; callbacks and loss recording are left out. Findings: C92_late_error, C92_ipsdta_unimplemented."
  },
  {
   "property": "C93",
   "status": "proved",
   "theorems": [
    "Verif.GradCall.C93_resume_ica",
    "Verif.GradCall.C93_resume_fastica",
    "Verif.GradCall.C93_resume_fdica",
    "Verif.GradCall.C93_fdica_alignment",
    "Verif.GradCall.C93_resume_iva",
    "Verif.GradCall.C93_resume_gauss_iva",
    "Verif.GradCall.C93_resume_fastiva",
    "Verif.GradCall.C93_resume_fasteriva",
    "Verif.GradCall.C93_natural_ica",
    "Verif.GradCall.C93_gradient_ica",
    "Verif.GradCall.C93_fastica",
    "Verif.GradCall.C93_keyword",
    "Verif.GradCall.C93_natural_iva",
    "Verif.GradCall.C93_fastiva",
    "Verif.GradCall.C93_fasteriva"
   ],
   "note": "record_loss=True, no callbacks. FastICA may still divide by a zero norm (NaN in numpy, an exception in the model), so its theorem is about calls that return."
  },
  {
   "property": "C94",
   "status": "proved",
   "theorems": [
    "Verif.IpsdtaCall.C94_resume_gauss",
    "Verif.IpsdtaCall.C94_resume_t",
    "Verif.IpsdtaCall.C94_no_blocks",
    "Verif.IpsdtaCall.C94_gauss",
    "Verif.IpsdtaCall.C94_t",
    "Verif.IpsdtaCall.C94_keyword",
    "Verif.IpsdtaCall.C94_none"
   ],
   "note": "record_loss=True, no callbacks, MM and VCD. A trace of 0 in the normalisation is NaN in numpy and 0 in the model."
  },
  {
   "property": "C95",
   "status": "proved",
   "theorems": [
    "Verif.Rotation.C95_gauss",
    "Verif.Rotation.C95_partitioned",
    "Verif.Rotation.C95_channels",
    "Verif.Rotation.C95_channels_partitioned",
    "Verif.Rotation.C95_cacgmm_loss",
    "Verif.Rotation.C95_cacgmm",
    "Verif.Rotation.C95_cacgmm_channels"
   ],
   "note": "Exact arithmetic. GaussMNMF needs a positive flooring function (the default). CACGMM draws its initial covariances, which are diagonal, so the claim is about the run from given parameters."
  },
  {
   "property": "C96",
   "status": "proved",
   "theorems": [
    "Verif.Relabel.C96_finish",
    "Verif.Relabel.C96_finishFree",
    "Verif.Relabel.Iva.C96_iva",
    "Verif.Relabel.Iva.C96_iva_iss",
    "Verif.Relabel.Iva.C96_iva_gauss",
    "Verif.Relabel.Ilrma.C96_ilrma",
    "Verif.Relabel.Ilrma.C96_ilrma_iss",
    "Verif.Relabel.Ilrma.C96_ilrma_partitioned",
    "Verif.Relabel.Ilrma.C96_ilrma_partitioned_iss",
    "Verif.IpsdtaCall.C96_gauss",
    "Verif.IpsdtaCall.C96_t",
    "Verif.Relabel.Mnmf.C96_mnmf",
    "Verif.Relabel.Mnmf.C96_mnmf_partitioned",
    "Verif.Relabel.Mnmf.C96_fast",
    "Verif.Relabel.Cacgmm.C96_cacgmm_loss",
    "Verif.Relabel.Cacgmm.C96_cacgmm",
    "Verif.Relabel.Fdica.C96_fdica"
   ],
   "note": "Exact arithmetic. The default IP and ISS sweeps treat the sources one after the other, so for those methods the order of the sources does matter and is not part of the claim."
  },
  {
   "property": "C97",
   "status": "proved",
   "theorems": [
    "Verif.SourceOrder.C97_finish",
    "Verif.SourceOrder.C97_ica",
    "Verif.SourceOrder.C97_fdica",
    "Verif.SourceOrder.C97_iva",
    "Verif.SourceOrder.C97_ica_laplace",
    "Verif.SourceOrder.C97_fdica_laplace",
    "Verif.SourceOrder.C97_iva_laplace",
    "Verif.SourceOrder.C97_iva_gauss"
   ],
   "note": "Exact arithmetic. FDICA without permutation alignment, whose tie-breaking depends on the numbering. FastICA and FastIVA are not covered."
  },
  {
   "property": "C98",
   "status": "proved",
   "theorems": [
    "Verif.ProxBss.C98_accepts",
    "Verif.ProxBss.C98_rejects",
    "Verif.ProxBss.C98_defaults",
    "Verif.ProxBss.C98_alpha",
    "Verif.ProxBss.C98_single",
    "Verif.ProxBss.C98_losses",
    "Verif.ProxBss.C98_pds_works",
    "Verif.ProxBss.C98_behaves",
    "Verif.ProxBss.C98_masking_accepts",
    "Verif.ProxBss.C98_masking_never_records",
    "Verif.ProxBss.C98_masking_behaves",
    "Verif.ProxBss.C98_hva",
    "Verif.ProxBss.C98_iva",
    "Verif.ProxBss.C98_old_names"
   ],
   "note": "Callbacks and warnings are not modelled. C98_pds_works is for relaxation 1 and projection back."
  },
  {
   "property": "C99",
   "status": "proved",
   "theorems": [
    "Verif.ProxRotation.C99_pds_call",
    "Verif.ProxRotation.C99_pds_rotation",
    "Verif.ProxRotation.C99_pds_renumber",
    "Verif.ProxRotation.C99_pds_iva",
    "Verif.ProxRotation.C99_masking_pds",
    "Verif.ProxRotation.C99_hva_mask",
    "Verif.ProxRotation.C99_admm_call",
    "Verif.ProxRotation.C99_admm_renumber",
    "Verif.ProxRotation.C99_admm_iva"
   ],
   "note": "For runs in which prox.neg_logdet is only applied to invertible matrices (ADMMBSS: or zero); its value depends on LAPACK otherwise (C79). The run hypothesis is checked along the run of the original recording only."
  },
  {
   "property": "C100",
   "status": "proved",
   "theorems": [
    "Verif.SourceLimit.C100_student",
    "Verif.SourceLimit.C100_student_me",
    "Verif.SourceLimit.C100_student_iss1",
    "Verif.SourceLimit.C100_ggd",
    "Verif.SourceLimit.C100_ggd_iss1",
    "Verif.SourceLimit.C100_student_unfloored",
    "Verif.SourceLimit.C100_ggd_silent"
   ],
   "note": "IP1 and ISS1, without partitioning, normalization off or by power. GGDILRMA: under the proviso that no separated entry vanishes along the GaussILRMA run (C100_ggd_silent shows why)."
  },
  {
   "property": "C101",
   "status": "proved",
   "theorems": [
    "Verif.BinByBin.C101_aux",
    "Verif.BinByBin.C101_aux_selection",
    "Verif.BinByBin.C101_aux_iva",
    "Verif.BinByBin.C101_aux_by_iva",
    "Verif.BinByBin.C101_grad",
    "Verif.BinByBin.C101_grad_iva",
    "Verif.BinByBin.C101_grad_by_iva"
   ],
   "note": "With permutation_alignment the bins do influence each other; what the alignment adds is C84 and C89_fdica_alignment."
  },
  {
   "property": "C102",
   "status": "proved",
   "theorems": [
    "Verif.HardPartition.C102_support",
    "Verif.HardPartition.C102_support_signal",
    "Verif.HardPartition.C102_hard",
    "Verif.HardPartition.C102_hard_signal"
   ],
   "note": "The flooring function is applied to the bases and activations but not to the latent variables, which is why a zero stays zero; the equality with the unpartitioned method also uses that the initial bases and activations are positive."
  },
  {
   "property": "C103",
   "status": "proved",
   "theorems": [
    "Verif.RecordLoss.C103_quiet",
    "Verif.RecordLoss.C103_ilrma",
    "Verif.RecordLoss.C103_ilrma_partitioned",
    "Verif.RecordLoss.C103_ilrma_signal",
    "Verif.RecordLoss.C103_ilrma_signal_partitioned",
    "Verif.RecordLoss.C103_iva",
    "Verif.RecordLoss.C103_gauss_iva",
    "Verif.RecordLoss.C103_fast_iva",
    "Verif.RecordLoss.C103_faster_iva",
    "Verif.RecordLoss.C103_iva_signal",
    "Verif.RecordLoss.C103_fdica",
    "Verif.RecordLoss.C103_grad_fdica",
    "Verif.RecordLoss.C103_grad_ica",
    "Verif.RecordLoss.C103_grad_iva",
    "Verif.RecordLoss.C103_fast_ica",
    "Verif.RecordLoss.C103_grad_gauss_iva",
    "Verif.RecordLoss.C103_fast_mnmf",
    "Verif.RecordLoss.C103_mnmf",
    "Verif.RecordLoss.C103_mnmf_partitioned",
    "Verif.RecordLoss.C103_ipsdta",
    "Verif.RecordLoss.C103_iss1_dependent"
   ],
   "note": "Without callbacks. GaussMNMF and the IPSDTA classes: one direction only is claimed and proved, since their losses factorise matrices and may raise."
  },
  {
   "property": "C104",
   "status": "proved",
   "theorems": [
    "Verif.FnConfig.C104_ica",
    "Verif.FnConfig.C104_ica_missing",
    "Verif.FnConfig.C104_ica_contrast",
    "Verif.FnConfig.C104_laplace_ica",
    "Verif.FnConfig.C104_fast_ica",
    "Verif.FnConfig.C104_fast_ica_missing",
    "Verif.FnConfig.C104_fdica",
    "Verif.FnConfig.C104_fdica_missing",
    "Verif.FnConfig.C104_fdica_contrast",
    "Verif.FnConfig.C104_laplace_fdica",
    "Verif.FnConfig.C104_iva",
    "Verif.FnConfig.C104_iva_missing",
    "Verif.FnConfig.C104_iva_contrast",
    "Verif.FnConfig.C104_laplace_iva",
    "Verif.FnConfig.C104_gauss_iva",
    "Verif.FnConfig.C104_fast_iva",
    "Verif.FnConfig.C104_faster_iva",
    "Verif.FnConfig.C104_fast_iva_missing",
    "Verif.FnConfig.C104_faster_iva_missing",
    "Verif.FnConfig.C104_aux_iva",
    "Verif.FnConfig.C104_aux_iva_signal",
    "Verif.FnConfig.C104_aux_laplace_iva",
    "Verif.FnConfig.C104_aux_iva_contrast",
    "Verif.FnConfig.C104_aux_iva_signal_contrast",
    "Verif.FnConfig.C104_aux_iva_no_contrast",
    "Verif.FnConfig.C104_aux_iva_signal_no_contrast",
    "Verif.FnConfig.C104_aux_iva_no_derivative",
    "Verif.FnConfig.C104_aux_iva_signal_no_derivative",
    "Verif.FnConfig.C104_aux_iva_no_iteration",
    "Verif.FnConfig.C104_aux_iva_no_pairs",
    "Verif.FnConfig.C104_aux_fdica",
    "Verif.FnConfig.C104_aux_fdica_missing",
    "Verif.FnConfig.C104_aux_fdica_no_derivative",
    "Verif.FnConfig.C104_aux_fdica_no_iteration",
    "Verif.FnConfig.C104_aux_fdica_no_pairs",
    "Verif.FnConfig.C104_aux_laplace_fdica"
   ],
   "note": "The first call of a new object, without callbacks. The names of spatial algorithms are checked in C92; IP2 with a pair selector that yields no pair is excluded where d_contrast_fn is missing."
  },
  {
   "property": "C105",
   "status": "proved",
   "theorems": [
    "Verif.Ipsdta.C105_step",
    "Verif.Ipsdta.C105_loss",
    "Verif.Ipsdta.C105_call"
   ],
   "note": "The comparison is with ILRMA without flooring; Clear lists the values of one update that IPSDTA floors, written with the formulas of ILRMA. TIPSDTA is not TILRMA with one-bin blocks (its weight pools all bins)."
  },
  {
   "property": "C106",
   "status": "proved",
   "theorems": [
    "Verif.FastMnmfIlrma.C106_step",
    "Verif.FastMnmfIlrma.C106_loss",
    "Verif.FastMnmfIlrma.C106_output",
    "Verif.FastMnmfIlrma.C106_call"
   ],
   "note": "Without flooring on both sides. The hypothesis on silence is stated along the run of ILRMA; it keeps the activations positive, otherwise both classes divide by zero."
  },
  {
   "property": "C107",
   "status": "proved",
   "theorems": [
    "Verif.MnmfJoint.C107_output",
    "Verif.MnmfJoint.C107_loss",
    "Verif.MnmfJoint.C107_basis",
    "Verif.MnmfJoint.C107_activation",
    "Verif.MnmfJoint.C107_call",
    "Verif.MnmfJoint.C107_first_iteration"
   ],
   "note": "The Wiener filters agree for every flooring function, the rest is without flooring. The statement on n_iter=1 is about calls that return."
  },
  {
   "property": "C108",
   "status": "proved",
   "theorems": [
    "Verif.HardMnmf.C108_support",
    "Verif.HardMnmf.C108_hard",
    "Verif.HardMnmf.C108_normalization"
   ],
   "note": "The flooring function must be positive everywhere (the default is). C108_normalization states how partitioned and unpartitioned GaussMNMF differ after one iteration with normalization."
  },
  {
   "property": "C109",
   "status": "proved",
   "theorems": [
    "Verif.TwoSources.C109_update",
    "Verif.TwoSources.C109_ilrma",
    "Verif.TwoSources.C109_ilrma_call",
    "Verif.TwoSources.C109_ilrma_call_unscaled",
    "Verif.TwoSources.C109_ilrma_call_partitioned",
    "Verif.TwoSources.C109_aux_iva",
    "Verif.TwoSources.C109_aux_iva_call",
    "Verif.TwoSources.C109_aux_gauss_iva",
    "Verif.TwoSources.C109_selectors"
   ],
   "note": "Every iteration must start from an invertible filter and weighted covariances that are positive definite and not proportional, with a flooring that does not act on the norms of the pair; for proportional covariances the joint diagonaliser is not unique and LAPACK decides. Partitioned ILRMA normalised by projection back is excluded because it raises."
  },
  {
   "property": "C110",
   "status": "proved",
   "theorems": [
    "Verif.NormFree.C110_run",
    "Verif.NormFree.C110_call",
    "Verif.NormFree.C110_initial_scale",
    "Verif.NormFree.C110_run_signal",
    "Verif.NormFree.C110_call_signal",
    "Verif.NormFree.C110_initial_scale_signal",
    "Verif.NormFree.C110_power",
    "Verif.NormFree.C110_power_signal"
   ],
   "note": "Flooring must be off: a floor acts on absolute values and so on the scale. Partitioned ILRMA is not claimed, because its update renormalises the latent variables over the sources without compensating the bases, which does not commute with rescaling the sources differently."
  },
  {
   "property": "C111",
   "status": "proved",
   "theorems": [
    "Verif.Cacgmm.C111_callWith_bins",
    "Verif.Cacgmm.C111_call",
    "Verif.Cacgmm.C111_loss",
    "Verif.Cacgmm.C111_callWith",
    "Verif.Cacgmm.C111_amplitude"
   ],
   "note": "The two amplitude options align permutations by amplitudes of the separated spectrograms, which a gain changes; there the claim is equality up to a permutation of the sources in each bin."
  },
  {
   "property": "C112",
   "status": "proved",
   "theorems": [
    "Verif.FastScale.C112_run",
    "Verif.FastScale.C112_call",
    "Verif.FastScale.C112_normalization",
    "Verif.FastScale.C112_normalization_independent",
    "Verif.FastScale.C112_ip1",
    "Verif.FastScale.C112_gain"
   ],
   "note": "Flooring must be off: a floor acts on absolute values and so on the scale. C112_run and C112_call hold under weaker conditions on the visited states (positive parameters, invertible diagonalizers); C112_normalization_independent, C112_ip1 and C112_gain derive them from linear independence."
  },
  {
   "property": "C113",
   "status": "proved",
   "theorems": [
    "Verif.IlrmaGain.C113_run",
    "Verif.IlrmaGain.C113_call",
    "Verif.IlrmaGain.C113_run_signal",
    "Verif.IlrmaGain.C113_call_signal",
    "Verif.IlrmaGain.C113_audible"
   ],
   "note": "Flooring must be off: a floor acts on absolute values. The bases of the second call are only asserted to exist when normalizations differ. C113_audible derives the conditions on the run from the recording."
  },
  {
   "property": "C114",
   "status": "proved",
   "theorems": [
    "Verif.MnmfMix.C114_run",
    "Verif.MnmfMix.C114_call",
    "Verif.MnmfMix.C114_normalization",
    "Verif.MnmfMix.C114_default_spatial",
    "Verif.MnmfMix.C114_gain",
    "Verif.MnmfMix.C114_reordered",
    "Verif.MnmfMix.C114_regular_mono",
    "Verif.MnmfMix.C114_regular_one_source"
   ],
   "note": "Flooring must be off: a floor acts on absolute values. Without partitioning: the normalization of the partitioned model is not compensated. C114_default_spatial covers multiples of unitary matrices from the default start; C114_gain, C114_reordered and C114_normalization are special cases; C114_regular_mono and C114_regular_one_source show that the condition on the run is met."
  },
  {
   "property": "C115",
   "status": "proved",
   "theorems": [
    "Verif.CacgmmMix.C115_loss",
    "Verif.CacgmmMix.C115_call",
    "Verif.CacgmmMix.C115_calibration",
    "Verif.CacgmmMix.C115_normalization",
    "Verif.Cacgmm.C115_calibration_aligned",
    "Verif.Cacgmm.C115_normalization_aligned"
   ],
   "note": "Flooring must be off: floors act on absolute values. C111 (floors allowed) covers gains common to all channels, C95 (floors allowed) rotations. C115_call is about the EM iterations from given parameters, since the class draws its initial parameters itself; C115_calibration and C115_normalization are about whole calls. C115_calibration and C115_normalization allow different alignment options in the two calls, C115_calibration_aligned and C115_normalization_aligned use the same one and are exact."
  },
  {
   "property": "C116",
   "status": "proved",
   "theorems": [
    "Verif.IpsdtaGain.C116_gauss",
    "Verif.IpsdtaGain.C116_t",
    "Verif.IpsdtaGain.C116_normalization_gauss",
    "Verif.IpsdtaGain.C116_normalization_t",
    "Verif.IpsdtaGain.C116_phase_gauss",
    "Verif.IpsdtaGain.C116_phase_t",
    "Verif.IpsdtaGain.C116_phase_default_gauss",
    "Verif.IpsdtaGain.C116_phase_default_t"
   ],
   "note": "Floors must be inactive (GReg, TReg as in C59/C60): in both runs for gains and normalization, in the first run for phases. That no floor is active in the second run is then proved for phases (greg_phase, treg_phase)."
  },
  {
   "property": "C117",
   "status": "proved",
   "theorems": [
    "Verif.FastMix.C117_whiten",
    "Verif.FastMix.C117_fast_ica",
    "Verif.FastMix.C117_fast_iva",
    "Verif.FastMix.C117_faster_iva"
   ],
   "note": "Scale restoration by the minimal distortion principle is left out: FastIVABase inherits an apply_minimal_distortion_principle that returns a filter for the unwhitened recording, which is then applied to the whitened one."
  },
  {
   "property": "C118",
   "status": "proved",
   "theorems": [
    "Verif.Microphones.C118_finish",
    "Verif.Microphones.C118_finishFree",
    "Verif.Microphones.C118_iva",
    "Verif.Microphones.C118_iva_signal",
    "Verif.Microphones.C118_ilrma",
    "Verif.Microphones.C118_ilrma_signal",
    "Verif.Microphones.C118_iva_floored",
    "Verif.Microphones.C118_iva_signal_floored",
    "Verif.Microphones.C118_ilrma_floored",
    "Verif.Microphones.C118_ilrma_signal_floored",
    "Verif.Microphones.C118_fdica",
    "Verif.Microphones.C118_gaussIpsdta",
    "Verif.Microphones.C118_tIpsdta",
    "Verif.Microphones.C118_gaussIva_all",
    "Verif.Microphones.C118_partitioned_all",
    "Verif.Microphones.C118_iva_signal_all",
    "Verif.Microphones.C118_ilrma_signal_all",
    "Verif.Microphones.C118_partitioned_signal_all",
    "Verif.Microphones.C118_fdica_all",
    "Verif.Microphones.C118_fdica_aligned",
    "Verif.Microphones.C118_gaussIpsdta_all",
    "Verif.Microphones.C118_tIpsdta_all",
    "Verif.Microphones.C118_naturalIca",
    "Verif.Microphones.C118_naturalIva",
    "Verif.Microphones.C118_naturalGaussIva",
    "Verif.Microphones.C118_naturalFdica",
    "Verif.Microphones.C118_fastMnmf",
    "Verif.Microphones.C118_ilrma_projectionBack",
    "Verif.Microphones.C118_ilrma_signal_projectionBack",
    "Verif.Microphones.C118_iva_all",
    "Verif.Microphones.C118_ilrma_all",
    "Verif.Microphones.C118_gaussIva",
    "Verif.Microphones.C118_partitioned",
    "Verif.Microphones.C118_partitioned_signal",
    "Verif.Microphones.C118_partitioned_floored"
   ],
   "note": "Stated for a new object; NMF parameters of ILRMA are passed as keyword arguments, those of IPSDTA are arbitrary."
  }
 ]
}