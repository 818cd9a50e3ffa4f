import Verif.Names.Model

/-!
# Numbers of the identifiers

Written by `/verif/tools/names_extract.py`.
-/

set_option linter.style.nameCheck false

namespace Verif.Names

abbrev n_gf_struct : Nm := 0
abbrev n_fix_gf_struct_type : Nm := 1
abbrev n_fundamental_operators : Nm := 2
abbrev n_block_name : Nm := 3
abbrev n_block_size : Nm := 4
abbrev n_range : Nm := 5
abbrev n_idx : Nm := 6
abbrev n_c : Nm := 7
abbrev n_h : Nm := 8
abbrev n_np : Nm := 9
abbrev n_Operator : Nm := 10
abbrev n_H : Nm := 11
abbrev n_enumerate : Nm := 12
abbrev n_idx1 : Nm := 13
abbrev n_o1 : Nm := 14
abbrev n_dagger : Nm := 15
abbrev n_idx2 : Nm := 16
abbrev n_o2 : Nm := 17
abbrev n_op : Nm := 18
abbrev n_list : Nm := 19
abbrev n_monomial_sum : Nm := 20
abbrev n_len : Nm := 21
abbrev n_monomial : Nm := 22
abbrev n_operator_list : Nm := 23
abbrev n_prefactor : Nm := 24
abbrev n_op_is_fundamental : Nm := 25
abbrev n_dag : Nm := 26
abbrev n_idxs : Nm := 27
abbrev n_tuple : Nm := 28
abbrev n_include_dag : Nm := 29
abbrev n_op_idx_map : Nm := 30
abbrev n_op_serialize_fundamental : Nm := 31
abbrev n_get_operator_index_map : Nm := 32
abbrev n_set : Nm := 33
abbrev n_op_idx_set : Nm := 34
abbrev n_nop : Nm := 35
abbrev n_complex : Nm := 36
abbrev n_h_quad : Nm := 37
abbrev n_term : Nm := 38
abbrev n_op_list : Nm := 39
abbrev n_d1 : Nm := 40
abbrev n_t1 : Nm := 41
abbrev n_d2 : Nm := 42
abbrev n_t2 : Nm := 43
abbrev n_i : Nm := 44
abbrev n_j : Nm := 45
abbrev n_U : Nm := 46
abbrev n_N : Nm := 47
abbrev n_n : Nm := 48
abbrev n_conjugation : Nm := 49
abbrev n_quartic_permutation_symmetrize : Nm := 50
abbrev n_quartic_conjugation_symmetrize : Nm := 51
abbrev n_quartic_pauli_symmetrize : Nm := 52
abbrev n_perm_sym : Nm := 53
abbrev n_h_quart : Nm := 54
abbrev n_zip : Nm := 55
abbrev n_d : Nm := 56
abbrev n_t : Nm := 57
abbrev n_all : Nm := 58
abbrev n_k : Nm := 59
abbrev n_l : Nm := 60
abbrev n_itertools : Nm := 61
abbrev n_ops : Nm := 62
abbrev n_o3 : Nm := 63
abbrev n_o4 : Nm := 64
abbrev n_c_transf : Nm := 65
abbrev n_op_trans_dict : Nm := 66
abbrev n_fop : Nm := 67
abbrev n_op_trans : Nm := 68
abbrev n_op_factor : Nm := 69
abbrev n_factor : Nm := 70
abbrev n_type : Nm := 71
abbrev n_tup : Nm := 72
abbrev n_c_dag : Nm := 73
abbrev n_s : Nm := 74
abbrev n_ret : Nm := 75
abbrev n_op_idx : Nm := 76
abbrev n_from_list : Nm := 77
abbrev n_to_list : Nm := 78
abbrev n_is_fundamental : Nm := 79
abbrev n_bidx : Nm := 80
abbrev n_fundamental_operators_from_gf_struct : Nm := 81
abbrev n_get_quadratic_operator : Nm := 82
abbrev n_quadratic_matrix_from_operator : Nm := 83
abbrev n_symmetrize_quartic_tensor : Nm := 84
abbrev n_quartic_tensor_from_operator : Nm := 85
abbrev n_operator_from_quartic_tensor : Nm := 86
abbrev n_operator_single_particle_transform : Nm := 87
abbrev n_relabel_operators : Nm := 88
abbrev n_is_operator_composed_of_only_fundamental_operators : Nm := 89
abbrev n___init__ : Nm := 90
abbrev n_items : Nm := 91
abbrev n_keys : Nm := 92
abbrev n_dict : Nm := 93
abbrev n_alter : Nm := 94
abbrev n_copy : Nm := 95
abbrev n___getitem__ : Nm := 96
abbrev n___reduce_to_dict__ : Nm := 97
abbrev n__clean_bools : Nm := 98
abbrev n_convert_keys_from_string_to_python : Nm := 99
abbrev n_grab_attribs : Nm := 100
abbrev n_classmethod : Nm := 101
abbrev n___factory_from_dict__ : Nm := 102
abbrev n___str__ : Nm := 103
abbrev n___repr__ : Nm := 104
abbrev n_get_my_name : Nm := 105
abbrev n_self : Nm := 106
abbrev n_kwargs : Nm := 107
abbrev n_p : Nm := 108
abbrev n_ParameterCollection : Nm := 109
abbrev n_key : Nm := 110
abbrev n_value : Nm := 111
abbrev n_bool : Nm := 112
abbrev n_dict_key : Nm := 113
abbrev n_d_fix : Nm := 114
abbrev n_eval : Nm := 115
abbrev n_obj : Nm := 116
abbrev n_getattr : Nm := 117
abbrev n_val : Nm := 118
abbrev n_cls : Nm := 119
abbrev n_name : Nm := 120
abbrev n_out : Nm := 121
abbrev n_str : Nm := 122
abbrev n_pc_list : Nm := 123
abbrev n_pc_txt : Nm := 124
abbrev n_str_value : Nm := 125
abbrev n_str_value_lines : Nm := 126
abbrev n_max_lines : Nm := 127
abbrev n_ans : Nm := 128
abbrev n_inspect : Nm := 129
abbrev n_frame : Nm := 130
abbrev n_tmp : Nm := 131
abbrev n_var : Nm := 132
abbrev n_isinstance : Nm := 133
abbrev n_hash : Nm := 134
abbrev n_append : Nm := 135
abbrev n_sort_on : Nm := 136
abbrev n_set_sorted_order : Nm := 137
abbrev n_getattr_from_objects : Nm := 138
abbrev n___getattr__ : Nm := 139
abbrev n___iter__ : Nm := 140
abbrev n___next__ : Nm := 141
abbrev n_objects : Nm := 142
abbrev n_attr : Nm := 143
abbrev n_sidx : Nm := 144
abbrev n_sorted_idx : Nm := 145
abbrev n_parameter_values : Nm := 146
abbrev n_ps : Nm := 147
abbrev n_parameter_value : Nm := 148
abbrev n_ParameterCollections : Nm := 149
abbrev n_object : Nm := 150
abbrev n_register_class : Nm := 151
abbrev n_parameter_scan : Nm := 152
abbrev n_beta : Nm := 153
abbrev n_nw : Nm := 154
abbrev n_nwf : Nm := 155
abbrev n_nwf_gf : Nm := 156
abbrev n_single_particle_greens_function : Nm := 157
abbrev n_g_iw : Nm := 158
abbrev n_BlockGf : Nm := 159
abbrev n_G_iw_block : Nm := 160
abbrev n_block_iw_AB_to_matrix_valued : Nm := 161
abbrev n_g_mat : Nm := 162
abbrev n_chi_ph_magnetic : Nm := 163
abbrev n_chi0_from_gg2_PH : Nm := 164
abbrev n_inverse_PH : Nm := 165
abbrev n_gamma_ph_magnetic : Nm := 166
abbrev n_analytic_hubbard_atom : Nm := 167
abbrev n_func : Nm := 168
abbrev n_args : Nm := 169
abbrev n_sys : Nm := 170
abbrev n_time : Nm := 171
abbrev n_r : Nm := 172
abbrev n_print : Nm := 173
abbrev n_print_info : Nm := 174
abbrev n_start : Nm := 175
abbrev n_stop : Nm := 176
abbrev n___call__ : Nm := 177
abbrev n___enter__ : Nm := 178
abbrev n___exit__ : Nm := 179
abbrev n_get_time : Nm := 180
abbrev n_write : Nm := 181
abbrev n_add : Nm := 182
abbrev n_print_levels : Nm := 183
abbrev n_calc : Nm := 184
abbrev n_names : Nm := 185
abbrev n_running : Nm := 186
abbrev n_RuntimeError : Nm := 187
abbrev n_were_running : Nm := 188
abbrev n_t0 : Nm := 189
abbrev n_tot : Nm := 190
abbrev n_max : Nm := 191
abbrev n_line : Nm := 192
abbrev n_tother : Nm := 193
abbrev n_inclusive : Nm := 194
abbrev n_exclusive : Nm := 195
abbrev n_sorted : Nm := 196
abbrev n_tinclusive : Nm := 197
abbrev n_int : Nm := 198
abbrev n_bar : Nm := 199
abbrev n_level : Nm := 200
abbrev n_timer : Nm := 201
abbrev n_method : Nm := 202
abbrev n_functools : Nm := 203
abbrev n_new_method : Nm := 204
abbrev n_slf : Nm := 205
abbrev n_x : Nm := 206
abbrev n_IndexError : Nm := 207
abbrev n_print_function : Nm := 208
abbrev n_function_timer : Nm := 209
abbrev n_Timer : Nm := 210
abbrev n_g_w : Nm := 211
abbrev n_g2_wnn : Nm := 212
abbrev n_chi_from_gg2_PH : Nm := 213
abbrev n_chi_wnn : Nm := 214
abbrev n_chi0_wnn : Nm := 215
abbrev n_Gamma_wnn : Nm := 216
abbrev n_gamma_wnn : Nm := 217
abbrev n_chi_wnk : Nm := 218
abbrev n_g2 : Nm := 219
abbrev n_wmesh : Nm := 220
abbrev n_nmesh : Nm := 221
abbrev n_kmesh : Nm := 222
abbrev n_MeshImFreq : Nm := 223
abbrev n_nmesh_small : Nm := 224
abbrev n_Gf : Nm := 225
abbrev n_MeshProduct : Nm := 226
abbrev n_chi_wnk_out : Nm := 227
abbrev n_e : Nm := 228
abbrev n_g_wk : Nm := 229
abbrev n_arch : Nm := 230
abbrev n_fmesh : Nm := 231
abbrev n_mpi : Nm := 232
abbrev n_Idx : Nm := 233
abbrev n_fourier_wk_to_wr : Nm := 234
abbrev n_g_wr : Nm := 235
abbrev n_n_r : Nm := 236
abbrev n_chi0r_from_gr_PH : Nm := 237
abbrev n_chi0_wnr : Nm := 238
abbrev n_chi0_r0 : Nm := 239
abbrev n_chi0q_from_chi0r : Nm := 240
abbrev n_chi0_wnk : Nm := 241
abbrev n_chi0 : Nm := 242
abbrev n_nw_index : Nm := 243
abbrev n_chi0_nr_from_gr_PH_at_specific_w : Nm := 244
abbrev n_chi0_nr : Nm := 245
abbrev n_add_fake_bosonic_mesh : Nm := 246
abbrev n_chi0_nk : Nm := 247
abbrev n_fmesh_g : Nm := 248
abbrev n_bmesh : Nm := 249
abbrev n_nk : Nm := 250
abbrev n_nwf_g : Nm := 251
abbrev n_tprf_banner : Nm := 252
abbrev n_imtime_bubble_chi0_wk : Nm := 253
abbrev n_chi0_wk_tail_corr : Nm := 254
abbrev n_get_chi0_wnk : Nm := 255
abbrev n_chi0q_sum_nu : Nm := 256
abbrev n_chi0_wk : Nm := 257
abbrev n_dchi_wk : Nm := 258
abbrev n_chi0_kw : Nm := 259
abbrev n_chiq_sum_nu_from_chi0q_and_gamma_PH : Nm := 260
abbrev n_chi_kw : Nm := 261
abbrev n_gamma_nn : Nm := 262
abbrev n_chi0_k_tail_corr : Nm := 263
abbrev n_get_chi0_nk_at_specific_w : Nm := 264
abbrev n_chi_k : Nm := 265
abbrev n_chi0_k : Nm := 266
abbrev n_tail_corr_nwf : Nm := 267
abbrev n_fmesh_huge : Nm := 268
abbrev n_nwf_sigma : Nm := 269
abbrev n_chiq_sum_nu_from_g_wk_and_gamma_PH : Nm := 270
abbrev n_mu : Nm := 271
abbrev n_e_k : Nm := 272
abbrev n_sigma_w : Nm := 273
abbrev n_chiq_sum_nu_from_e_k_sigma_w_and_gamma_PH : Nm := 274
abbrev n_HDFArchive : Nm := 275
abbrev n_chi0r_from_gr_PH_nompi : Nm := 276
abbrev n_impurity_irreducible_vertex_Gamma : Nm := 277
abbrev n_solve_local_bse : Nm := 278
abbrev n_fixed_fermionic_window_python_wnk : Nm := 279
abbrev n_solve_lattice_bse : Nm := 280
abbrev n_solve_lattice_bse_at_specific_w : Nm := 281
abbrev n_solve_lattice_bse_depr : Nm := 282
abbrev n_solve_lattice_bse_e_k_sigma_w : Nm := 283
abbrev n_g2_conn_wnn : Nm := 284
abbrev n_inv_chi0_wnn : Nm := 285
abbrev n_product_PH : Nm := 286
abbrev n_F_wnn : Nm := 287
abbrev n_L_wn : Nm := 288
abbrev n_chi_imp_w : Nm := 289
abbrev n_nn : Nm := 290
abbrev n_g_nonlocal_wr : Nm := 291
abbrev n_chi0_nonlocal_wnr : Nm := 292
abbrev n_chi0_nonlocal_wnk : Nm := 293
abbrev n_L_resize_wn : Nm := 294
abbrev n_w : Nm := 295
abbrev n_chiq_sum_nu_from_chi0q_and_gamma_and_L_wn_PH : Nm := 296
abbrev n_impurity_reducible_vertex_F : Nm := 297
abbrev n_solve_lattice_dbse : Nm := 298
abbrev n_Gamma_pp_wk : Nm := 299
abbrev n_initial_delta : Nm := 300
abbrev n_Gamma_pp_const_k : Nm := 301
abbrev n_tol : Nm := 302
abbrev n_product : Nm := 303
abbrev n_solver : Nm := 304
abbrev n_symmetrize_fct : Nm := 305
abbrev n_from_x_to_wk : Nm := 306
abbrev n_from_wk_to_x : Nm := 307
abbrev n_MeshDLRImFreq : Nm := 308
abbrev n_hasDLRMesh : Nm := 309
abbrev n_preprocess_gamma_for_fft : Nm := 310
abbrev n_Gamma_pp_dyn_tr : Nm := 311
abbrev n_Gamma_pp_const_r : Nm := 312
abbrev n_eliashberg_product_fft_constant : Nm := 313
abbrev n_eli_prod : Nm := 314
abbrev n_eliashberg_product_fft : Nm := 315
abbrev n_NotImplementedError : Nm := 316
abbrev n_eliashberg_product : Nm := 317
abbrev n_matvec : Nm := 318
abbrev n_semi_random_initial_delta : Nm := 319
abbrev n_power_method_LR : Nm := 320
abbrev n_es : Nm := 321
abbrev n_evs : Nm := 322
abbrev n_implicitly_restarted_arnoldi_method : Nm := 323
abbrev n_eigen_modes : Nm := 324
abbrev n_delta_x : Nm := 325
abbrev n_delta_wk : Nm := 326
abbrev n_delta_out_wk : Nm := 327
abbrev n_delta_out_x : Nm := 328
abbrev n_Gamma_pp_dyn_wk : Nm := 329
abbrev n_dynamic_and_constant_to_tr : Nm := 330
abbrev n_split_into_dynamic_wk_and_constant_k : Nm := 331
abbrev n_Gamma_pp_dyn_wk_fit : Nm := 332
abbrev n_Gamma_pp_const_k_fit : Nm := 333
abbrev n_const_type : Nm := 334
abbrev n_float : Nm := 335
abbrev n_nr_factor : Nm := 336
abbrev n_seed : Nm := 337
abbrev n_delta : Nm := 338
abbrev n_shape : Nm := 339
abbrev n_random_data : Nm := 340
abbrev n_freq_data : Nm := 341
abbrev n_not_randomized : Nm := 342
abbrev n_init : Nm := 343
abbrev n_LinearOperator : Nm := 344
abbrev n_linop : Nm := 345
abbrev n_eigs : Nm := 346
abbrev n_Es : Nm := 347
abbrev n_max_it : Nm := 348
abbrev n_iteration : Nm := 349
abbrev n_power_method : Nm := 350
abbrev n_norm : Nm := 351
abbrev n_v_k : Nm := 352
abbrev n__ : Nm := 353
abbrev n_v_k_test : Nm := 354
abbrev n_diff : Nm := 355
abbrev n_offset : Nm := 356
abbrev n_v_k1 : Nm := 357
abbrev n_v_k1_norm : Nm := 358
abbrev n_it : Nm := 359
abbrev n_new_v_k : Nm := 360
abbrev n_AssertionError : Nm := 361
abbrev n_delta_1 : Nm := 362
abbrev n_delta_2 : Nm := 363
abbrev n_atol : Nm := 364
abbrev n_delta_1_arr : Nm := 365
abbrev n_delta_2_arr : Nm := 366
abbrev n_division_of_deltas : Nm := 367
abbrev n_ValueError : Nm := 368
abbrev n_have_common_scalar_factor : Nm := 369
abbrev n_U_d : Nm := 370
abbrev n_U_m : Nm := 371
abbrev n_phi_d_wk : Nm := 372
abbrev n_phi_m_wk : Nm := 373
abbrev n_gamma_singlet : Nm := 374
abbrev n_gamma_triplet : Nm := 375
abbrev n_construct_phi_wk : Nm := 376
abbrev n_solve_eliashberg : Nm := 377
abbrev n_allclose_by_scalar_multiplication : Nm := 378
abbrev n_construct_gamma_singlet_rpa : Nm := 379
abbrev n_construct_gamma_triplet_rpa : Nm := 380
abbrev n_dlr_mesh : Nm := 381
abbrev n_G_tau : Nm := 382
abbrev n_symmetrizer : Nm := 383
abbrev n_discontinuity : Nm := 384
abbrev n_density : Nm := 385
abbrev n_realvalued : Nm := 386
abbrev n_ftol : Nm := 387
abbrev n_verbose : Nm := 388
abbrev n_G_iaa : Nm := 389
abbrev n_tau_i : Nm := 390
abbrev n_get_rpa_tensor : Nm := 391
abbrev n_h_ab : Nm := 392
abbrev n_U_abcd : Nm := 393
abbrev n_triqs_driver : Nm := 394
abbrev n_dd : Nm := 395
abbrev n_constrained_lstsq_dlr_from_tau : Nm := 396
abbrev n_G_xaa_sym : Nm := 397
abbrev n_sol : Nm := 398
abbrev n_G_c : Nm := 399
abbrev n_initial_guess_from_tau_interp1d : Nm := 400
abbrev n_initial_guess_from_tau_lstsq : Nm := 401
abbrev n_initial_guess_from_tau : Nm := 402
abbrev n_eval_dlr_tau : Nm := 403
abbrev n___len__ : Nm := 404
abbrev n___eval_T : Nm := 405
abbrev n_cmesh : Nm := 406
abbrev n_MeshDLR : Nm := 407
abbrev n_w_x : Nm := 408
abbrev n_gc : Nm := 409
abbrev n_K_0_x : Nm := 410
abbrev n_K_beta_x : Nm := 411
abbrev n_make_gf_dlr : Nm := 412
abbrev n_make_gf_dlr_imtime : Nm := 413
abbrev n_G_t : Nm := 414
abbrev n_interp1d : Nm := 415
abbrev n_G : Nm := 416
abbrev n_tau : Nm := 417
abbrev n_G_x : Nm := 418
abbrev n_g0_xaa : Nm := 419
abbrev n_a : Nm := 420
abbrev n_b : Nm := 421
abbrev n_T_ix : Nm := 422
abbrev n_b_iA : Nm := 423
abbrev n_x_xA : Nm := 424
abbrev n_g_xaa : Nm := 425
abbrev n_eval_T : Nm := 426
abbrev n_g_iaa : Nm := 427
abbrev n_hasattr : Nm := 428
abbrev n_dlr : Nm := 429
abbrev n_dlr_class : Nm := 430
abbrev n_kernel : Nm := 431
abbrev n_dK_0_x : Nm := 432
abbrev n_dK_beta_x : Nm := 433
abbrev n_positivity : Nm := 434
abbrev n_nx : Nm := 435
abbrev n_ni : Nm := 436
abbrev n_no : Nm := 437
abbrev n_shape_xaa : Nm := 438
abbrev n_dtype : Nm := 439
abbrev n_nX : Nm := 440
abbrev n_merge_re_im : Nm := 441
abbrev n_split_re_im : Nm := 442
abbrev n_Symmetrizer : Nm := 443
abbrev n_sym : Nm := 444
abbrev n_g_from_x : Nm := 445
abbrev n_x_from_g : Nm := 446
abbrev n_constraints : Nm := 447
abbrev n_A_xaa : Nm := 448
abbrev n_A_nX : Nm := 449
abbrev n_LinearConstraint : Nm := 450
abbrev n_disc_constr : Nm := 451
abbrev n_bound : Nm := 452
abbrev n_U_ab_xcd : Nm := 453
abbrev n_U_nX : Nm := 454
abbrev n_I : Nm := 455
abbrev n_dK_nX : Nm := 456
abbrev n_mat_vec : Nm := 457
abbrev n_density_constraint_function : Nm := 458
abbrev n_density_bound : Nm := 459
abbrev n_NonlinearConstraint : Nm := 460
abbrev n_density_constr : Nm := 461
abbrev n_greens_function_difference : Nm := 462
abbrev n_target_function : Nm := 463
abbrev n_x0 : Nm := 464
abbrev n_minimize : Nm := 465
abbrev n_x_d : Nm := 466
abbrev n_x_u : Nm := 467
abbrev n_re : Nm := 468
abbrev n_im : Nm := 469
abbrev n_mat : Nm := 470
abbrev n_v_d : Nm := 471
abbrev n_v_u : Nm := 472
abbrev n_v : Nm := 473
abbrev n_g : Nm := 474
abbrev n_vec : Nm := 475
abbrev n_g_in_iaa : Nm := 476
abbrev n_err_iaa : Nm := 477
abbrev n_y : Nm := 478
abbrev n_get_x_d : Nm := 479
abbrev n_set_x_d : Nm := 480
abbrev n_get_x_u : Nm := 481
abbrev n_set_x_u : Nm := 482
abbrev n_get_diag_indices : Nm := 483
abbrev n_get_triu_indices : Nm := 484
abbrev n_arr : Nm := 485
abbrev n_block_mat : Nm := 486
abbrev n_unique_non_zero : Nm := 487
abbrev n_term_idxs : Nm := 488
abbrev n_diag_idxs : Nm := 489
abbrev n_diag_terms : Nm := 490
abbrev n_triu_idxs : Nm := 491
abbrev n_triu_terms : Nm := 492
abbrev n_diag_term_idxs : Nm := 493
abbrev n_diag_term : Nm := 494
abbrev n_triu_term_idxs : Nm := 495
abbrev n_triu_term : Nm := 496
abbrev n_term_idx : Nm := 497
abbrev n_fitdlr : Nm := 498
abbrev n_pydlr_driver : Nm := 499
abbrev n_BlockSymmetrizer : Nm := 500
abbrev n_fourier_wr_to_tr : Nm := 501
abbrev n_g_tr : Nm := 502
abbrev n_chi0_tr_from_grt_PH : Nm := 503
abbrev n_PI_tr : Nm := 504
abbrev n_chi_wr_from_chi_tr : Nm := 505
abbrev n_PI_wr : Nm := 506
abbrev n_chi_wk_from_chi_wr : Nm := 507
abbrev n_PI_wk : Nm := 508
abbrev n_H_int : Nm := 509
abbrev n_fourier_wr_to_wk : Nm := 510
abbrev n_fourier_tr_to_wr : Nm := 511
abbrev n_chi_tr_from_chi_wr : Nm := 512
abbrev n_chi_wr_from_chi_wk : Nm := 513
abbrev n_dynamical_screened_interaction_W : Nm := 514
abbrev n_dynamical_screened_interaction_W_from_generalized_susceptibility : Nm := 515
abbrev n_hartree_sigma : Nm := 516
abbrev n_fock_sigma : Nm := 517
abbrev n_gw_sigma : Nm := 518
abbrev n_gw_dynamic_sigma : Nm := 519
abbrev n_g0w_sigma : Nm := 520
abbrev n_lindhard_chi00 : Nm := 521
abbrev n_bubble_PI_wk : Nm := 522
abbrev n_get_gw_tensor : Nm := 523
abbrev n_calc_real_space : Nm := 524
abbrev n_calc_real_freq : Nm := 525
abbrev n_calc_rho_loc : Nm := 526
abbrev n_calc_total_density : Nm := 527
abbrev n_calc_rho_k : Nm := 528
abbrev n_calc_rho_r : Nm := 529
abbrev n_polarization : Nm := 530
abbrev n_screened_interaction : Nm := 531
abbrev n_susceptibiltiy : Nm := 532
abbrev n_dynamic_and_static_interaction : Nm := 533
abbrev n_dyson_equation : Nm := 534
abbrev n__dyson_equation_dispatch : Nm := 535
abbrev n_solve_iter : Nm := 536
abbrev n_get_local_density_matrix : Nm := 537
abbrev n_get_total_density : Nm := 538
abbrev n_logo : Nm := 539
abbrev n_V_k : Nm := 540
abbrev n_N_fix : Nm := 541
abbrev n_N_tol : Nm := 542
abbrev n_mu_bracket : Nm := 543
abbrev n_make_gf_from_fourier : Nm := 544
abbrev n_V_wk : Nm := 545
abbrev n_fbmesh : Nm := 546
abbrev n_opts : Nm := 547
abbrev n_pade_analytical_continuation_wk : Nm := 548
abbrev n_gw_rf : Nm := 549
abbrev n_rho_r : Nm := 550
abbrev n_rho_loc : Nm := 551
abbrev n_rho_k_from_g_wk : Nm := 552
abbrev n_rho_k : Nm := 553
abbrev n_V_r : Nm := 554
abbrev n_W_dyn_wk : Nm := 555
abbrev n_W_dyn_wr : Nm := 556
abbrev n_W_dyn_tr : Nm := 557
abbrev n_sigma_dyn_tr : Nm := 558
abbrev n_sigma_dyn_wr : Nm := 559
abbrev n_sigma_dyn_wk : Nm := 560
abbrev n_P_wk : Nm := 561
abbrev n_spinless : Nm := 562
abbrev n_W_wk : Nm := 563
abbrev n_generalized_susceptibility : Nm := 564
abbrev n_chi_wk : Nm := 565
abbrev n_W_stat_k : Nm := 566
abbrev n_sigma_wk : Nm := 567
abbrev n_root_scalar : Nm := 568
abbrev n_lattice_dyson_g_wk : Nm := 569
abbrev n_lattice_dyson_g0_wk : Nm := 570
abbrev n_maxiter : Nm := 571
abbrev n_hartree : Nm := 572
abbrev n_fock : Nm := 573
abbrev n_gw : Nm := 574
abbrev n_N_old : Nm := 575
abbrev n_g_wk_old : Nm := 576
abbrev n_iter : Nm := 577
abbrev n_dlr_on_imfreq : Nm := 578
abbrev n_GWSolver : Nm := 579
abbrev n__compute_drho_dop : Nm := 580
abbrev n__compute_drho_k_dop : Nm := 581
abbrev n__compute_chi0_ab : Nm := 582
abbrev n__compute_R_abcd : Nm := 583
abbrev n__compute_R_kabcd : Nm := 584
abbrev n__compute_chi0_abcd : Nm := 585
abbrev n__compute_chi0_kabcd : Nm := 586
abbrev n_eps : Nm := 587
abbrev n_I_ab : Nm := 588
abbrev n_drho_k : Nm := 589
abbrev n_drho : Nm := 590
abbrev n_E_p : Nm := 591
abbrev n_E_m : Nm := 592
abbrev n_np_eigh : Nm := 593
abbrev n_e_p : Nm := 594
abbrev n_U_p : Nm := 595
abbrev n_e_m : Nm := 596
abbrev n_fermi : Nm := 597
abbrev n_rho_k_p : Nm := 598
abbrev n_rho_k_m : Nm := 599
abbrev n_chi0_ab : Nm := 600
abbrev n_F_a : Nm := 601
abbrev n_chi0_b : Nm := 602
abbrev n_field_prefactor : Nm := 603
abbrev n_R_abcd : Nm := 604
abbrev n_F_ab : Nm := 605
abbrev n_R_cd : Nm := 606
abbrev n_R_kabcd : Nm := 607
abbrev n_R_kcd : Nm := 608
abbrev n_chi0_kabcd : Nm := 609
abbrev n_chi0_abcd : Nm := 610
abbrev n_R_r_kabcd : Nm := 611
abbrev n_R_i_kabcd : Nm := 612
abbrev n_txt : Nm := 613
abbrev n_mode_decomposition : Nm := 614
abbrev n__to_matrix_AB : Nm := 615
abbrev n__to_tensor_abcd : Nm := 616
abbrev n___check_op : Nm := 617
abbrev n_bare_response : Nm := 618
abbrev n_response : Nm := 619
abbrev n_compute_chi0_k : Nm := 620
abbrev n_hartree_fock_solver : Nm := 621
abbrev n_super : Nm := 622
abbrev n_HartreeFockResponse : Nm := 623
abbrev n_I_AB : Nm := 624
abbrev n_U_AB : Nm := 625
abbrev n_chi0_AB : Nm := 626
abbrev n_chi_AB : Nm := 627
abbrev n_tensor_abcd : Nm := 628
abbrev n_matrix_AB : Nm := 629
abbrev n_op1 : Nm := 630
abbrev n_op2 : Nm := 631
abbrev n_chi0_op1op2 : Nm := 632
abbrev n_chi_op1op2 : Nm := 633
abbrev n_extract_dens_dens : Nm := 634
abbrev n_hartree_solver : Nm := 635
abbrev n_HartreeResponse : Nm := 636
abbrev n_U_ab : Nm := 637
abbrev n_chi_ab : Nm := 638
abbrev n_chi_abcd : Nm := 639
abbrev n_norb : Nm := 640
abbrev n_i1 : Nm := 641
abbrev n_i2 : Nm := 642
abbrev n_BaseResponse : Nm := 643
abbrev n_update_mean_field : Nm := 644
abbrev n_update_mean_field_dispersion : Nm := 645
abbrev n_update_chemical_potential : Nm := 646
abbrev n_update_momentum_density_matrix : Nm := 647
abbrev n_update_density_matrix : Nm := 648
abbrev n_update_non_int_free_energy : Nm := 649
abbrev n_update_kinetic_energy : Nm := 650
abbrev n_update_interaction_energy : Nm := 651
abbrev n_update_total_energy : Nm := 652
abbrev n_density_matrix_step : Nm := 653
abbrev n_solve_setup : Nm := 654
abbrev n_solve_newton : Nm := 655
abbrev n_solve_newton_mu : Nm := 656
abbrev n_total_density : Nm := 657
abbrev n_density_matrix : Nm := 658
abbrev n_mean_field_matrix : Nm := 659
abbrev n_chemical_potential : Nm := 660
abbrev n_expectation_value : Nm := 661
abbrev n_mat2vec : Nm := 662
abbrev n_vec2mat : Nm := 663
abbrev n_mu0 : Nm := 664
abbrev n_mu_max : Nm := 665
abbrev n_mu_min : Nm := 666
abbrev n_rho_ab : Nm := 667
abbrev n_N_target : Nm := 668
abbrev n_np_eigvalsh : Nm := 669
abbrev n_brentq : Nm := 670
abbrev n_V : Nm := 671
abbrev n_rho_kab : Nm := 672
abbrev n_E_kin : Nm := 673
abbrev n_E_int : Nm := 674
abbrev n_Omega0 : Nm := 675
abbrev n_rho_vec : Nm := 676
abbrev n_M0 : Nm := 677
abbrev n_rho0_ab : Nm := 678
abbrev n_rho0_vec : Nm := 679
abbrev n_nitermax : Nm := 680
abbrev n_mixing : Nm := 681
abbrev n_rho_iter : Nm := 682
abbrev n_rho_vec_old : Nm := 683
abbrev n_rho_vec_new : Nm := 684
abbrev n_fsolve : Nm := 685
abbrev n_op_ab : Nm := 686
abbrev n_diag : Nm := 687
abbrev n_up_tri : Nm := 688
abbrev n_HartreeFockSolver : Nm := 689
abbrev n_HartreeSolver : Nm := 690
abbrev n_gf : Nm := 691
abbrev n_mesh : Nm := 692
abbrev n_meshes : Nm := 693
abbrev n_betas : Nm := 694
abbrev n_gf_w : Nm := 695
abbrev n_g_in : Nm := 696
abbrev n_g_out : Nm := 697
abbrev n_index : Nm := 698
abbrev n_sigma_in : Nm := 699
abbrev n_debug : Nm := 700
abbrev n_sigma : Nm := 701
abbrev n_oplot : Nm := 702
abbrev n_plt : Nm := 703
abbrev n_exit : Nm := 704
abbrev n_tb_lattice : Nm := 705
abbrev n_ntau : Nm := 706
abbrev n_ntot : Nm := 707
abbrev n_nbytes : Nm := 708
abbrev n_ngb : Nm := 709
abbrev n_BrillouinZone : Nm := 710
abbrev n_bz : Nm := 711
abbrev n_MeshBrZone : Nm := 712
abbrev n_bzmesh : Nm := 713
abbrev n_ek_tb_dispersion_on_bzmesh : Nm := 714
abbrev n_strip_sigma : Nm := 715
abbrev n_save_memory : Nm := 716
abbrev n_multiprocessing : Nm := 717
abbrev n_ncores : Nm := 718
abbrev n_nw_g : Nm := 719
abbrev n_ng_tr : Nm := 720
abbrev n_ng_wr : Nm := 721
abbrev n_ng_t : Nm := 722
abbrev n_nchi_tr : Nm := 723
abbrev n_nchi_wr : Nm := 724
abbrev n_nchi_t : Nm := 725
abbrev n_nchi_w : Nm := 726
abbrev n_nchi_r : Nm := 727
abbrev n_ntot_case_1 : Nm := 728
abbrev n_ntot_case_2 : Nm := 729
abbrev n_ntot_case_3 : Nm := 730
abbrev n_chi0_w0r_from_grt_PH : Nm := 731
abbrev n_chi0_wr : Nm := 732
abbrev n_chi0_wr_from_grt_PH : Nm := 733
abbrev n_chi0_tr : Nm := 734
abbrev n_chi : Nm := 735
abbrev n_bubble_setup : Nm := 736
abbrev n_sigma_w_cut : Nm := 737
abbrev n_grt : Nm := 738
abbrev n_n_orb : Nm := 739
abbrev n_ek : Nm := 740
abbrev n_k_vec : Nm := 741
abbrev n_get_relative_k_from_absolute : Nm := 742
abbrev n_k_vec_rel : Nm := 743
abbrev n_units : Nm := 744
abbrev n_kidx : Nm := 745
abbrev n_dim : Nm := 746
abbrev n_shape_4 : Nm := 747
abbrev n_shape_2 : Nm := 748
abbrev n_k_out : Nm := 749
abbrev n_axis : Nm := 750
abbrev n_cut : Nm := 751
abbrev n_slice : Nm := 752
abbrev n_chiwr : Nm := 753
abbrev n_rmesh : Nm := 754
abbrev n_exp_fact : Nm := 755
abbrev n_chi00wk_data : Nm := 756
abbrev n_values : Nm := 757
abbrev n_extend_bz : Nm := 758
abbrev n_k_mat : Nm := 759
abbrev n_k_vec_ext : Nm := 760
abbrev n_values_ext : Nm := 761
abbrev n_k_shift : Nm := 762
abbrev n_LinearNDInterpolator : Nm := 763
abbrev n_interp : Nm := 764
abbrev n_extend_boundary : Nm := 765
abbrev n_interpolator : Nm := 766
abbrev n_get_kidx_from_k_vec_relative : Nm := 767
abbrev n_k_idx : Nm := 768
abbrev n_get_k_components_from_k_vec : Nm := 769
abbrev n_kx : Nm := 770
abbrev n_ky : Nm := 771
abbrev n_kz : Nm := 772
abbrev n_extend_data_on_boundary : Nm := 773
abbrev n_RegularGridInterpolator : Nm := 774
abbrev n_NearestNDInterpolator : Nm := 775
abbrev n_nk_ext : Nm := 776
abbrev n_coords : Nm := 777
abbrev n_Coords : Nm := 778
abbrev n_Coords_mod : Nm := 779
abbrev n_k_idx_ext : Nm := 780
abbrev n_k_vec_rel_ext : Nm := 781
abbrev n_kxe : Nm := 782
abbrev n_kye : Nm := 783
abbrev n_kze : Nm := 784
abbrev n_paths : Nm := 785
abbrev n_num : Nm := 786
abbrev n_relative_coordinates : Nm := 787
abbrev n_k_space_path : Nm := 788
abbrev n_M : Nm := 789
abbrev n_target_shape : Nm := 790
abbrev n_n_points : Nm := 791
abbrev n_freq_offset : Nm := 792
abbrev n_g_fk : Nm := 793
abbrev n_g_f : Nm := 794
abbrev n_gf_tensor_to_matrix : Nm := 795
abbrev n_g_c : Nm := 796
abbrev n_small_mesh : Nm := 797
abbrev n_gf_matrix_to_tensor : Nm := 798
abbrev n_chi_w0r_from_chi_tr : Nm := 799
abbrev n_put_gf_on_mesh : Nm := 800
abbrev n_chi_contraction : Nm := 801
abbrev n_chi0_w0k_tau_bubble : Nm := 802
abbrev n_cluster_mesh_fourier_interpolation : Nm := 803
abbrev n_get_abs_k_chi_interpolator : Nm := 804
abbrev n_get_rel_k_chi_interpolator : Nm := 805
abbrev n_banner : Nm := 806
abbrev n_tensor : Nm := 807
abbrev n_rank : Nm := 808
abbrev n_spin_fast : Nm := 809
abbrev n_spin_independent_gf : Nm := 810
abbrev n_Up : Nm := 811
abbrev n_J : Nm := 812
abbrev n_Jp : Nm := 813
abbrev n_non_orb_idx : Nm := 814
abbrev n_left : Nm := 815
abbrev n_right : Nm := 816
abbrev n_matrix : Nm := 817
abbrev n_chi0_matrix : Nm := 818
abbrev n_u_matrix : Nm := 819
abbrev n_u_chi0 : Nm := 820
abbrev n_np_inv : Nm := 821
abbrev n_inverse_matrix : Nm := 822
abbrev n_chi_rpa_matrix : Nm := 823
abbrev n_us : Nm := 824
abbrev n_tensor_to_matrix : Nm := 825
abbrev n_us_matrix : Nm := 826
abbrev n_matrix_rpa : Nm := 827
abbrev n_chi_rpa_spin_matrix : Nm := 828
abbrev n_matrix_to_tensor : Nm := 829
abbrev n_chi_rpa_spin_tensor : Nm := 830
abbrev n_uc : Nm := 831
abbrev n_uc_matrix : Nm := 832
abbrev n_chi_rpa_charge_matrix : Nm := 833
abbrev n_chi_rpa_charge_tensor : Nm := 834
abbrev n_tprf_order_to_matrix_rpa_order : Nm := 835
abbrev n_lose_spin_degree_of_freedom : Nm := 836
abbrev n_get_rpa_us_tensor : Nm := 837
abbrev n_get_rpa_uc_tensor : Nm := 838
abbrev n_chi_rpa_spin : Nm := 839
abbrev n_chi_rpa_charge : Nm := 840
abbrev n_version : Nm := 841
abbrev n_parse : Nm := 842
abbrev n_is_numpy_newer_than : Nm := 843
abbrev n_arr_out : Nm := 844
abbrev n_ranges : Nm := 845
abbrev n_A : Nm := 846
abbrev n_np_linalg_func : Nm := 847
abbrev n_E : Nm := 848
abbrev n_K : Nm := 849
abbrev n_G2 : Nm := 850
abbrev n_cplx : Nm := 851
abbrev n_idx_labels : Nm := 852
abbrev n_opt : Nm := 853
abbrev n_title : Nm := 854
abbrev n_data : Nm := 855
abbrev n_subp : Nm := 856
abbrev n_colorbar_flag : Nm := 857
abbrev n_i3 : Nm := 858
abbrev n_i4 : Nm := 859
abbrev n_ax : Nm := 860
abbrev n_labels : Nm := 861
abbrev n_sub_title : Nm := 862
abbrev n_vmin : Nm := 863
abbrev n_vmax : Nm := 864
abbrev n_vm : Nm := 865
abbrev n_oplotr : Nm := 866
abbrev n_oploti : Nm := 867
abbrev n_plot_g2 : Nm := 868
abbrev n_get_g2_opt : Nm := 869
abbrev n_path : Nm := 870
abbrev n_opt_list : Nm := 871
abbrev n_opt_dict : Nm := 872
abbrev n___bsplot_impl : Nm := 873
abbrev n_top : Nm := 874
abbrev n_hs_labels : Nm := 875
abbrev n_hs_k : Nm := 876
abbrev n_k_paths : Nm := 877
abbrev n_k_vecs : Nm := 878
abbrev n_k_plot : Nm := 879
abbrev n_K_plot : Nm := 880
abbrev n_types : Nm := 881
abbrev n_get_gf_on_path : Nm := 882
abbrev n_gf_on_path : Nm := 883
abbrev n_lower_limit : Nm := 884
abbrev n_upper_limit : Nm := 885
abbrev n___dosplot_impl : Nm := 886
abbrev n_gaussian_kde : Nm := 887
abbrev n_dos : Nm := 888
abbrev n_xs : Nm := 889
abbrev n_mpl : Nm := 890
abbrev n_bsplot : Nm := 891
abbrev n_dosplot : Nm := 892
abbrev n_block : Nm := 893
abbrev n_Gamma_RPA_abcd : Nm := 894
abbrev n_U_c : Nm := 895
abbrev n_U_s : Nm := 896
abbrev n_abar : Nm := 897
abbrev n_bbar : Nm := 898
abbrev n_scalar_c : Nm := 899
abbrev n_scalar_s : Nm := 900
abbrev n_U_4 : Nm := 901
abbrev n_shape_8 : Nm := 902
abbrev n_U_8 : Nm := 903
abbrev n_zeros : Nm := 904
abbrev n_U_uu : Nm := 905
abbrev n_U_ud : Nm := 906
abbrev n_s1 : Nm := 907
abbrev n_s2 : Nm := 908
abbrev n_kanamori_charge_and_spin_quartic_interaction_tensors : Nm := 909
abbrev n_quartic_tensor_from_charge_and_spin : Nm := 910
abbrev n_chi_c : Nm := 911
abbrev n_chi_s : Nm := 912
abbrev n_target_rank : Nm := 913
abbrev n_chi_general : Nm := 914
abbrev n_chi_uu : Nm := 915
abbrev n_chi_ud : Nm := 916
abbrev n_chi_xud : Nm := 917
abbrev n_idx_rank : Nm := 918
abbrev n_up : Nm := 919
abbrev n_down : Nm := 920
abbrev n_check_spin_conservation : Nm := 921
abbrev n_get_gamma_rpa : Nm := 922
abbrev n_split_quartic_tensor_in_charge_and_spin : Nm := 923
abbrev n_kanamori_quartic_tensor : Nm := 924
abbrev n_general_susceptibility_from_charge_and_spin : Nm := 925
abbrev n_charge_and_spin_susceptibility_from_general : Nm := 926
abbrev n_TBSuperLattice : Nm := 927
abbrev n___all__ : Nm := 928
abbrev n_variables : Nm := 929
abbrev n_symmetries : Nm := 930
abbrev n__symmetrize_frequency : Nm := 931
abbrev n__symmetrize_momentum : Nm := 932
abbrev n__symmetrize_orbital : Nm := 933
abbrev n_variable_symmetrize_fct : Nm := 934
abbrev n_variable : Nm := 935
abbrev n_symmetry : Nm := 936
abbrev n_gf_symmetrized : Nm := 937
abbrev n__check_frequency_symmetry : Nm := 938
abbrev n__check_momentum_symmetry : Nm := 939
abbrev n__check_orbital_symmetry : Nm := 940
abbrev n_variable_check_symmetry : Nm := 941
abbrev n_variable_symmetry : Nm := 942
abbrev n_check_symmetry_fct : Nm := 943
abbrev n_half_1 : Nm := 944
abbrev n_half_2 : Nm := 945
abbrev n_signs : Nm := 946
abbrev n_nw_half : Nm := 947
abbrev n_negative_half : Nm := 948
abbrev n_positive_half : Nm := 949
abbrev n__split_frequency : Nm := 950
abbrev n__average_halfs : Nm := 951
abbrev n_avg : Nm := 952
abbrev n_momentum : Nm := 953
abbrev n_momentum_mesh : Nm := 954
abbrev n_inv_k : Nm := 955
abbrev n_unraveled_idx : Nm := 956
abbrev n__invert_momentum : Nm := 957
abbrev n_unraveled_inv_idx : Nm := 958
abbrev n_inv_idx : Nm := 959
abbrev n__split_momentum : Nm := 960
abbrev n_id : Nm := 961
abbrev n__overall_sign : Nm := 962
abbrev n_nparticle : Nm := 963
abbrev n_mesh_slice : Nm := 964
abbrev n_upper_triangle_slice : Nm := 965
abbrev n_lower_triangle_slice : Nm := 966
abbrev n_combined_slice : Nm := 967
abbrev n_upper_1 : Nm := 968
abbrev n_upper_2 : Nm := 969
abbrev n_lower_1 : Nm := 970
abbrev n_lower_2 : Nm := 971
abbrev n_upper_triangle : Nm := 972
abbrev n_lower_triangle : Nm := 973
abbrev n_orb : Nm := 974
abbrev n__split_orbital_triangle : Nm := 975
abbrev n__split_orbital_diagonal : Nm := 976
abbrev n_diagonal : Nm := 977
abbrev n_enforce_symmetry : Nm := 978
abbrev n_check_symmetry : Nm := 979
abbrev n_tp : Nm := 980
abbrev n_zeeman : Nm := 981
abbrev n_spin : Nm := 982
abbrev n_AttributeError : Nm := 983
abbrev n_t_matrix : Nm := 984
abbrev n_tp_matrix : Nm := 985
abbrev n_zeeman_matrix : Nm := 986
abbrev n_hopping : Nm := 987
abbrev n_orbital_positions : Nm := 988
abbrev n_TBLattice : Nm := 989
abbrev n_square_lattice : Nm := 990
abbrev n_t12 : Nm := 991
abbrev n_t21 : Nm := 992
abbrev n_full_units : Nm := 993
abbrev n_all_nn_hoppings : Nm := 994
abbrev n_sum : Nm := 995
abbrev n_non_diagonal_hoppings : Nm := 996
abbrev n_hoppings : Nm := 997
abbrev n_model_for_tests : Nm := 998
abbrev n_create_square_lattice : Nm := 999
abbrev n_create_model_for_tests : Nm := 1000
abbrev n_info : Nm := 1001
abbrev n_string : Nm := 1002
abbrev n_filename : Nm := 1003
abbrev n_filename_h5 : Nm := 1004
abbrev n_filename_tar : Nm := 1005
abbrev n_res : Nm := 1006
abbrev n_tarfile : Nm := 1007
abbrev n_tar : Nm := 1008
abbrev n_os : Nm := 1009
abbrev n_f : Nm := 1010
abbrev n_NamedTemporaryFile : Nm := 1011
abbrev n_next : Nm := 1012
abbrev n_order : Nm := 1013
abbrev n_G_l_cut : Nm := 1014
abbrev n_l_g_l : Nm := 1015
abbrev n_fit_legendre : Nm := 1016
abbrev n_g_l : Nm := 1017
abbrev n_enforce_discontinuity : Nm := 1018
abbrev n_G_l : Nm := 1019
abbrev n_mesh_iw : Nm := 1020
abbrev n_mesh_inu : Nm := 1021
abbrev n_mesh_prod : Nm := 1022
abbrev n_g2_out : Nm := 1023
abbrev n_eV_to_Kelvin : Nm := 1024
abbrev n_T : Nm := 1025
abbrev n_ev : Nm := 1026
abbrev n_Kelvin_to_eV : Nm := 1027
abbrev n_g0_wk : Nm := 1028
abbrev n_solve_rpa_PH : Nm := 1029
abbrev n_chi_d : Nm := 1030
abbrev n_chi_m : Nm := 1031
abbrev n_gamma : Nm := 1032
abbrev n_eliashberg_ingredients : Nm := 1033
abbrev n_p1 : Nm := 1034
abbrev n_p2 : Nm := 1035
abbrev n_model_parameters : Nm := 1036
abbrev n_model_parameter : Nm := 1037
abbrev n_value1 : Nm := 1038
abbrev n_value2 : Nm := 1039
abbrev n_error : Nm := 1040
abbrev n_show_version_info : Nm := 1041
abbrev n_write_TarGZ_HDFArchive : Nm := 1042
abbrev n_read_TarGZ_HDFArchive : Nm := 1043
abbrev n_BlockGf_data : Nm := 1044
abbrev n_legendre_filter : Nm := 1045
abbrev n_G2_loc_fixed_fermionic_window_python : Nm := 1046
abbrev n_beta_to_temperature : Nm := 1047
abbrev n_temperature_to_beta : Nm := 1048
abbrev n_create_eliashberg_ingredients : Nm := 1049
abbrev n_create_g0_wk_for_test_model : Nm := 1050
abbrev n_assert_parameter_collection_not_equal_model_parameters : Nm := 1051
abbrev n_prefix : Nm := 1052
abbrev n_orbsub : Nm := 1053
abbrev n_glob : Nm := 1054
abbrev n_filenames : Nm := 1055
abbrev n_warnings : Nm := 1056
abbrev n_q : Nm := 1057
abbrev n_vals : Nm := 1058
abbrev n_norbsub : Nm := 1059
abbrev n_nq : Nm := 1060
abbrev n_Q : Nm := 1061
abbrev n_U_Q : Nm := 1062
abbrev n_qidx : Nm := 1063
abbrev n_u : Nm := 1064
abbrev n_ijkl : Nm := 1065
abbrev n_uidx : Nm := 1066
abbrev n_kpts : Nm := 1067
abbrev n_BravaisLattice : Nm := 1068
abbrev n_bl : Nm := 1069
abbrev n_u_q : Nm := 1070
abbrev n_kunits : Nm := 1071
abbrev n_read_vasp_crpa_vq_to_ndarray : Nm := 1072
abbrev n_UR_Q : Nm := 1073
abbrev n_VR_Q : Nm := 1074
abbrev n_VRR_Q : Nm := 1075
abbrev n_convert_from_ndarray_to_triqs : Nm := 1076
abbrev n_v_q : Nm := 1077
abbrev n_read_vasp_crpa_vq_to_triqs : Nm := 1078
abbrev n_Bohr : Nm := 1079
abbrev n_Angstrom : Nm := 1080
abbrev n_open : Nm := 1081
abbrev n_fd : Nm := 1082
abbrev n_lines : Nm := 1083
abbrev n_num_wann : Nm := 1084
abbrev n_nrpts : Nm := 1085
abbrev n_nlines : Nm := 1086
abbrev n_deg : Nm := 1087
abbrev n_StringIO : Nm := 1088
abbrev n_hopp : Nm := 1089
abbrev n_R : Nm := 1090
abbrev n_nm : Nm := 1091
abbrev n_t_re : Nm := 1092
abbrev n_t_im : Nm := 1093
abbrev n_OrderedDict : Nm := 1094
abbrev n_r_dict : Nm := 1095
abbrev n_hopp_dict : Nm := 1096
abbrev n_m : Nm := 1097
abbrev n_weight : Nm := 1098
abbrev n_unit : Nm := 1099
abbrev n_IOError : Nm := 1100
abbrev n_array : Nm := 1101
abbrev n_vectors : Nm := 1102
abbrev n_idxstart : Nm := 1103
abbrev n_idxend : Nm := 1104
abbrev n_n_pts : Nm := 1105
abbrev n_Units : Nm := 1106
abbrev n_parse_hopping_from_wannier90_hr_dat : Nm := 1107
abbrev n_parse_lattice_vectors_from_wannier90_wout : Nm := 1108
abbrev n_parse_reciprocal_lattice_vectors_from_wannier90_wout : Nm := 1109
abbrev n_parse_orbital_positions_from_wannier90_wout : Nm := 1110
abbrev n_parse_band_structure_from_wannier90_band_dat : Nm := 1111
abbrev n_bg_AB : Nm := 1112
abbrev n_g_nr : Nm := 1113
abbrev n_chi_wnr : Nm := 1114
abbrev n_gamma_ph_wnn : Nm := 1115
abbrev n_B : Nm := 1116
abbrev n_nt : Nm := 1117
abbrev n_chi_tr : Nm := 1118
abbrev n_chi_wr : Nm := 1119
abbrev n_v_r : Nm := 1120
abbrev n_W_tr : Nm := 1121
abbrev n_PI_fk : Nm := 1122
abbrev n_V_fk : Nm := 1123
abbrev n_chi_fk : Nm := 1124
abbrev n_g0_fk : Nm := 1125
abbrev n_sigma_hartree_k : Nm := 1126
abbrev n_sigma_fock_k : Nm := 1127
abbrev n_chi0_from_gg2_PP : Nm := 1128
abbrev n_chi_from_gg2_PP : Nm := 1129
abbrev n_chi0_tau_from_g_tau_PH : Nm := 1130
abbrev n_block_3nu_AABB_to_tensor_valued : Nm := 1131
abbrev n_get_magnetic_component : Nm := 1132
abbrev n_from_3nu_PH : Nm := 1133
abbrev n_from_3nu_PH_bar : Nm := 1134
abbrev n_from_3nu_PP : Nm := 1135
abbrev n_lattice_dyson_g0_fk : Nm := 1136
abbrev n_lattice_dyson_g_fk : Nm := 1137
abbrev n_lattice_dyson_g_w : Nm := 1138
abbrev n_lattice_dyson_g_f : Nm := 1139
abbrev n_fourier_fk_to_fr : Nm := 1140
abbrev n_fourier_fr_to_fk : Nm := 1141
abbrev n_fourier_Tk_to_Tr : Nm := 1142
abbrev n_fourier_Tr_to_Tk : Nm := 1143
abbrev n_dlr_on_imtime : Nm := 1144
abbrev n_add_dynamic_and_static : Nm := 1145
abbrev n_bose : Nm := 1146
abbrev n_g0w_dynamic_sigma : Nm := 1147
abbrev n_eliashberg_g_delta_g_product : Nm := 1148
abbrev n_eliashberg_constant_gamma_f_product : Nm := 1149
abbrev n_g0_Tk_les_gtr_from_e_k : Nm := 1150
abbrev n_chi0_Tr_from_g_Tr_PH : Nm := 1151
abbrev n_chi_trapz_tau : Nm := 1152
abbrev n_chi0q_from_g_wk_PH : Nm := 1153
abbrev n_chi0r_from_chi0q : Nm := 1154
abbrev n_chi0q_sum_nu_tail_corr_PH : Nm := 1155
abbrev n_chi0q_sum_nu_q : Nm := 1156
abbrev n_chiq_from_chi0q_and_gamma_PH : Nm := 1157
abbrev n_chiq_sum_nu : Nm := 1158
abbrev n_chiq_sum_nu_q : Nm := 1159
abbrev n_attatch_tri_vert : Nm := 1160
abbrev n_inverse_PP : Nm := 1161
abbrev n_inverse_PH_bar : Nm := 1162
abbrev n_product_PP : Nm := 1163
abbrev n_product_PH_bar : Nm := 1164
abbrev n_identity_PH : Nm := 1165
abbrev n_identity_PP : Nm := 1166
abbrev n_identity_PH_bar : Nm := 1167

/-- the builtin names of Python that occur in the package, and the names every module has -/
def builtins : List Nm :=
  [n_AssertionError, n_AttributeError, n_IOError, n_IndexError, n_NotImplementedError, n_RuntimeError, n_ValueError, n_all, n_bool,
    n_classmethod, n_complex, n_dict, n_enumerate, n_eval, n_exit, n_float, n_getattr, n_hasattr, n_hash, n_id, n_int,
    n_isinstance, n_iter, n_len, n_list, n_max, n_next, n_object, n_open, n_print, n_range, n_set, n_slice, n_sorted, n_str,
    n_sum, n_super, n_tuple, n_type, n_zip]

end Verif.Names
