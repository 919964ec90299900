{
 "claims": [
  {
   "property": "C01",
   "status": "proved",
   "theorems": [
    "SymRust.C01_eq_refl",
    "SymRust.C01_eq_symm",
    "SymRust.C01_eq_trans",
    "SymRust.C01_eq_iff_value"
   ],
   "note": "Props/Rational. ℚ-value of a triple; cross-multiplication of reduced triples; gcd = Nat.gcd. eq_refl/symm/trans have no hypotheses at all."
  },
  {
   "property": "C02",
   "status": "proved",
   "theorems": [
    "SymRust.C02_reduce_never_panics",
    "SymRust.C02_reduce_value",
    "SymRust.C02_reduce_lowest",
    "SymRust.C02_reduce_idem",
    "SymRust.C02_reduce_canonical"
   ],
   "note": "Props/Rational. Induction of Euclid's algorithm against Nat.gcd; holds for every bit pattern, also 0/0."
  },
  {
   "property": "C03",
   "status": "proved",
   "theorems": [
    "SymRust.C03_new_rational",
    "SymRust.C03_new_rational_panics_iff",
    "SymRust.C03_new",
    "SymRust.C03_new_panics_iff",
    "SymRust.C03_new_valid",
    "SymRust.C03_new_positive_negative"
   ],
   "note": "Props/Rational. Case analysis on the stored sign over all i64; the one panicking argument (abs of i64::MIN in debug) is characterised by an iff. new_positive and new_negative included."
  },
  {
   "property": "C04",
   "status": "proved",
   "theorems": [
    "SymRust.C04_add_exact",
    "SymRust.C04_sub_exact",
    "SymRust.C04_cast_wraps"
   ],
   "note": "Props/Rational. Mode `strict` = nothing wrapped. C04_cast_wraps is the counterexample without the cast condition (debug build, wrong sign, no panic)."
  },
  {
   "property": "C05",
   "status": "proved",
   "theorems": [
    "SymRust.C05_mul_exact",
    "SymRust.C05_div_exact",
    "SymRust.C05_neg_exact"
   ],
   "note": "Props/Rational. As C04, but for the debug build itself (no cast involved)."
  },
  {
   "property": "C06",
   "status": "proved",
   "theorems": [
    "SymRust.C06_small_add",
    "SymRust.C06_small_sub",
    "SymRust.C06_small_mul",
    "SymRust.C06_small_div"
   ],
   "note": "Props/Rational. Bounds on all intermediate products, for all pairs below 2^31 and every Mode."
  },
  {
   "property": "C07",
   "status": "proved",
   "theorems": [
    "SymRust.C07_numbers",
    "SymRust.C07_num_aggregate",
    "SymRust.C07_derivative",
    "SymRust.C07_derivative_expr",
    "SymRust.C07_taylor",
    "SymRust.C07_limit",
    "SymRust.C07_wrap_free",
    "SymRust.C07_wrap_free_numbers"
   ],
   "note": "Props/{Number, Structure, LimitShape}. Relation 'debug panics or both agree', shown monotone through bind, then induction over tree / order / recursion bound."
  },
  {
   "property": "C08",
   "status": "proved",
   "theorems": [
    "SymRust.C08_release_total",
    "SymRust.C08_release_total_expr",
    "SymRust.C08_numbers"
   ],
   "note": "Props/Structure. Release primitives are total; induction over built trees. limit is excluded (C39) and is stated so."
  },
  {
   "property": "C09",
   "status": "proved",
   "theorems": [
    "SymRust.C09_flags",
    "SymRust.C09_flags_exclusive"
   ],
   "note": "Props/Number. Invariant over the inductive set Reachable of numbers obtainable by any sequence of API operations, in any Mode."
  },
  {
   "property": "C10",
   "status": "proved",
   "theorems": [
    "SymRust.C10_add_exact",
    "SymRust.C10_sub_exact",
    "SymRust.C10_mul_exact",
    "SymRust.C10_div_exact",
    "SymRust.C10_neg_exact",
    "SymRust.C10_no_floats"
   ],
   "note": "Props/Number. Case analysis over representations, C04/C05 for rationals; C10_no_floats excludes the float fallback."
  },
  {
   "property": "C11",
   "status": "proved",
   "theorems": [
    "SymRust.C11_zero_add",
    "SymRust.C11_add_zero",
    "SymRust.C11_sub_zero",
    "SymRust.C11_one_mul",
    "SymRust.C11_mul_one",
    "SymRust.C11_zero_mul",
    "SymRust.C11_mul_zero",
    "SymRust.C11_zero_div"
   ],
   "note": "Props/Number. For every float implementation and every x (also NaN): same record back, flag included."
  },
  {
   "property": "C12",
   "status": "proved",
   "theorems": [
    "SymRust.C12_div_zero",
    "SymRust.C12_propagates",
    "SymRust.C12_by_undefined",
    "SymRust.C12_f64",
    "SymRust.C12_example",
    "SymRust.C12_int_div_zero",
    "SymRust.C12_zero_div_zero"
   ],
   "note": "Props/{Number, DivZero}. All numbers; what becomes of n/0 afterwards."
  },
  {
   "property": "C13",
   "status": "proved",
   "theorems": [
    "SymRust.C13_f32",
    "SymRust.C13_i64_roundtrip",
    "SymRust.C13_narrow",
    "SymRust.C13_f64",
    "SymRust.C13_u64"
   ],
   "note": "Props/{Number, Float64}. All widths; the u64 case is exact iff < 2^63 and otherwise wraps, proved as an iff. C13_f32: widening never rounds, from the bit-level definitions (Proofs/Float32)."
  },
  {
   "property": "C14",
   "status": "proved",
   "theorems": [
    "SymRust.C14_f64",
    "SymRust.C14_sign",
    "SymRust.C14_sign_int",
    "SymRust.C14_sign_rational_zero"
   ],
   "note": "Props/{Number, Float64}. The property as first imagined fails for rational zeros; C14_sign_rational_zero states what happens there. C14_f64: doubles, with zeros, infinities and NaN."
  },
  {
   "property": "C15",
   "status": "proved",
   "theorems": [
    "SymRust.C15_toRational",
    "SymRust.C15_toRational_panics_iff",
    "SymRust.C15_toRational_none_iff",
    "SymRust.C15_toI64_iff",
    "SymRust.C15_kinds",
    "SymRust.C15_quotient_toI64"
   ],
   "note": "Props/Number. to_rational panic condition proved as an iff."
  },
  {
   "property": "C16",
   "status": "proved",
   "theorems": [
    "SymRust.C16_f64_symm",
    "SymRust.C16_f64_refl",
    "SymRust.C16_isClose_symm",
    "SymRust.C16_near_err_iff",
    "SymRust.C16_near_refl"
   ],
   "note": "Props/{Number, Structure, Float64}. For any float type with the needed laws as hypotheses (|a-b| = |b-a|, a-a = 0, 0 < eps), and for IEEE-754 doubles without hypotheses (C16_f64_*)."
  },
  {
   "property": "C17",
   "status": "proved",
   "theorems": [
    "SymRust.C17_f64",
    "SymRust.C17_f64_special",
    "SymRust.C17_display_never_panics",
    "SymRust.C17_display_special",
    "SymRust.C17_display_int",
    "SymRust.C17_int_display_injective",
    "SymRust.C17_display_rational"
   ],
   "note": "Props/{Number, Float64}. Text of every number; injective on integers. C17_f64: the text of a finite double is a decimal with three digits within 0.0005 of it."
  },
  {
   "property": "C18",
   "status": "proved",
   "theorems": [
    "SymRust.C18_f64",
    "SymRust.C18_add_comm",
    "SymRust.C18_mul_comm",
    "SymRust.C18_zero_zero",
    "SymRust.C18_one_one"
   ],
   "note": "Props/{Number, Float64}. Exact numbers: unconditional (both panic or same value). Other float types: commutativity as hypothesis. C18_f64: IEEE-754 doubles, no hypothesis."
  },
  {
   "property": "C19",
   "status": "proved",
   "theorems": [
    "SymRust.C19_closed",
    "SymRust.C19_taylor",
    "SymRust.C19_limit",
    "SymRust.C19_meaning"
   ],
   "note": "Props/Structure. Well-formedness is preserved by every operation, by induction; C19_meaning spells the predicate out node by node."
  },
  {
   "property": "C20",
   "status": "proved",
   "theorems": [
    "SymRust.C20_value",
    "SymRust.C20_value_of_rules",
    "SymRust.C20_value_exact_floats"
   ],
   "note": "Props/Semantics. Real-valued semantics (Spec/Semantics). C20_value: every float implementation, value compared where defined exactly (StandsFor). C20_value_exact_floats: exact float arithmetic, all floats. C20_value_of_rules: same with the syntactic side condition."
  },
  {
   "property": "C21",
   "status": "proved",
   "theorems": [
    "SymRust.C21_cos_pi",
    "SymRust.C21_zero_pow",
    "SymRust.C21_one_pow",
    "SymRust.C21_ln_pow",
    "SymRust.C21_literal",
    "SymRust.C21_cos_pi_value",
    "SymRust.C21_zero_pow_value",
    "SymRust.C21_one_pow_value",
    "SymRust.C21_ln_pow_value"
   ],
   "note": "Props/{Aggregate, Semantics}. The negation of C20 at its excluded points, for all r and u, with the values shown to differ."
  },
  {
   "property": "C22",
   "status": "proved",
   "theorems": [
    "SymRust.C22_no_new_variables"
   ],
   "note": "Props/Aggregate. Induction on the aggregation relation Agg, which is proved equivalent to num_aggregate."
  },
  {
   "property": "C23",
   "status": "proved",
   "theorems": [
    "SymRust.C23_never_grows",
    "SymRust.C23_converges"
   ],
   "note": "Props/Aggregate. Induction; C23_converges counts passes."
  },
  {
   "property": "C24",
   "status": "proved",
   "theorems": [
    "SymRust.C24_idempotent_without_sub",
    "SymRust.C24_fixed_points",
    "SymRust.C24_no_bound_with_sub",
    "SymRust.C24_not_idempotent"
   ],
   "note": "Props/Aggregate. Fixed points characterised by an iff; explicit family needing more than n passes for every n."
  },
  {
   "property": "C25",
   "status": "proved",
   "theorems": [
    "SymRust.C25_folds_to_number",
    "SymRust.C25_folds_exactly"
   ],
   "note": "Props/Aggregate. Independent evaluator ConstValue into ℚ."
  },
  {
   "property": "C26",
   "status": "proved",
   "theorems": [
    "SymRust.C26_normal_form"
   ],
   "note": "Props/Aggregate. NormalAt at every subterm of every result."
  },
  {
   "property": "C27",
   "status": "proved",
   "theorems": [
    "SymRust.C27_value",
    "SymRust.C27_value_expr"
   ],
   "note": "Props/{Structure, Semantics}. Both directions of definedness."
  },
  {
   "property": "C28",
   "status": "proved",
   "theorems": [
    "SymRust.C28_trivial",
    "SymRust.C28_variables",
    "SymRust.C28_commute",
    "SymRust.C28_size"
   ],
   "note": "Props/Structure. Sizes by exact count of occurrences."
  },
  {
   "property": "C29",
   "status": "proved",
   "theorems": [
    "SymRust.C29_variable",
    "SymRust.C29_not_variable",
    "SymRust.C29_error_text"
   ],
   "note": "Props/Structure. Both overloads of all four entry points."
  },
  {
   "property": "C30",
   "status": "proved",
   "theorems": [
    "SymRust.C30_derivative",
    "SymRust.C30_derivative_exact_floats"
   ],
   "note": "Props/Semantics. Mathlib HasDerivAt. C30_derivative for every float implementation, C30_derivative_exact_floats for exact floats."
  },
  {
   "property": "C31",
   "status": "proved",
   "theorems": [
    "SymRust.C31_absent_zero"
   ],
   "note": "Props/Structure. In every Mode."
  },
  {
   "property": "C32",
   "status": "proved",
   "theorems": [
    "SymRust.C32_no_new_variables"
   ],
   "note": "Props/Structure. Induction on the derivative relation Der, proved equivalent to derivative."
  },
  {
   "property": "C33",
   "status": "proved",
   "theorems": [
    "SymRust.C33_shape",
    "SymRust.C33_succeeds"
   ],
   "note": "Props/{Taylor, TaylorTotal}. Loop invariant; nthDerivative is an independent recursion. C33_succeeds: exactly when an expansion exists."
  },
  {
   "property": "C34",
   "status": "proved",
   "theorems": [
    "SymRust.C34_coefficients",
    "SymRust.C34_restrictions_needed"
   ],
   "note": "Props/Semantics. iteratedDeriv of the denoted function. C34_restrictions_needed: the four wrong expansions."
  },
  {
   "property": "C35",
   "status": "proved",
   "theorems": [
    "SymRust.C35_remainder"
   ],
   "note": "Props/Semantics. Mathlib's Taylor theorem on top of C34."
  },
  {
   "property": "C36",
   "status": "proved",
   "theorems": [
    "SymRust.C36_order_21_panics",
    "SymRust.C36_exact_to_20",
    "SymRust.C36_order_20_succeeds",
    "SymRust.C36_release_wrong"
   ],
   "note": "Props/{Taylor, TaylorTotal}. Factorials against Nat.factorial; exp at 0 shows order 20 does succeed; C36_release_wrong: order 21 in release."
  },
  {
   "property": "C37",
   "status": "proved",
   "theorems": [
    "SymRust.C37_prefix"
   ],
   "note": "Props/Taylor. Loop invariant."
  },
  {
   "property": "C38",
   "status": "proved",
   "theorems": [
    "SymRust.C38_display",
    "SymRust.C38_total"
   ],
   "note": "Props/{Taylor, Display}. Induction over the coefficient list; shownTerms is the independent specification of which coefficients are shown."
  },
  {
   "property": "C39",
   "status": "proved",
   "theorems": [
    "SymRust.C39_unsupported_panics",
    "SymRust.C39_no_answer"
   ],
   "note": "Props/LimitShape. Every Mode, operand, point, order, recursion bound."
  },
  {
   "property": "C40",
   "status": "proved",
   "theorems": [
    "SymRust.C40_never_fluctuation"
   ],
   "note": "Props/LimitShape. Induction on the recursion bound."
  },
  {
   "property": "C41",
   "status": "proved",
   "theorems": [
    "SymRust.C41_neg",
    "SymRust.C41_add",
    "SymRust.C41_sub",
    "SymRust.C41_mul",
    "SymRust.C41_div",
    "SymRust.C41_add_err",
    "SymRust.C41_add_err_spurious",
    "SymRust.C41_add_err_needed",
    "SymRust.C41_mul_err",
    "SymRust.C41_div_err",
    "SymRust.C41_mul_condition_needed",
    "SymRust.C41_div_condition_needed"
   ],
   "note": "Props/LimitArith. For all functions along all filters. The two conditions are shown necessary by concrete functions."
  },
  {
   "property": "C42",
   "status": "proved",
   "theorems": [
    "SymRust.C42_value",
    "SymRust.C42_limit"
   ],
   "note": "Props/LimitSem. Induction on the recursion bound with continuity from C30's smoothness lemma."
  },
  {
   "property": "C43",
   "status": "proved",
   "theorems": [
    "SymRust.C43_wrong",
    "SymRust.C43_sin_at_zero"
   ],
   "note": "Props/{LimitShape, LimitSem}. C43_sin_at_zero for all arguments; C43_wrong is the false answer."
  },
  {
   "property": "C44",
   "status": "proved",
   "theorems": [
    "SymRust.C44_order_stable"
   ],
   "note": "Props/LimitShape. Simulation between runs with different order_try."
  },
  {
   "property": "C45",
   "status": "proved",
   "theorems": [
    "SymRust.C45_div_free_terminates"
   ],
   "note": "Props/LimitShape. Explicit recursion bound (size), so termination is not assumed by the model."
  },
  {
   "property": "C46",
   "status": "proved",
   "theorems": [
    "SymRust.C46_never_panics",
    "SymRust.C46_operators",
    "SymRust.C46_leaves"
   ],
   "note": "Props/{Display, Structure}. Priorities and parentheses for every operator and operand."
  },
  {
   "property": "C47",
   "status": "proved",
   "theorems": [
    "SymRust.C47_iff",
    "SymRust.C47_left_grouped",
    "SymRust.C47_value",
    "SymRust.C47_subtraction_ambiguous",
    "SymRust.C47_negative_literal_ambiguous"
   ],
   "note": "Props/Readback. Reference reader of tokens; regrouping as an independent inductive relation; iff."
  },
  {
   "property": "C48",
   "status": "proved",
   "theorems": [
    "SymRust.C48_number",
    "SymRust.C48_variable",
    "SymRust.C48_operator",
    "SymRust.C48_extract_iff",
    "SymRust.C48_error",
    "SymRust.C48_rational_iff"
   ],
   "note": "Props/Structure. All leaves and operators."
  },
  {
   "property": "C49",
   "status": "proved",
   "theorems": [
    "SymRust.C49_main",
    "SymRust.C49_exp_coefficients",
    "SymRust.C49_ln_coefficients"
   ],
   "note": "Props/Main. main has no input: evaluated by the kernel for both builds and every FloatOps F; exp coefficients for every order up to 20."
  },
  {
   "property": "C50",
   "status": "proved",
   "theorems": [
    "SymRust.C50_lhopital",
    "SymRust.C50_sound",
    "SymRust.C50_sin_over_x",
    "SymRust.C50_zero_over_zero_wrong"
   ],
   "note": "Props/LimitSem. Taylor expansions of dividend and divisor; the false answer at the excluded point is C50_zero_over_zero_wrong."
  },
  {
   "property": "C51",
   "status": "proved",
   "theorems": [
    "SymRust.C51_sound",
    "SymRust.C51_example",
    "SymRust.C51_mul_condition_needed",
    "SymRust.C51_div_condition_needed"
   ],
   "note": "Props/LimitFull. Induction on the recursion bound over meromorphic germs (Mathlib Meromorphic.Order): every rewriting and any nesting of L'Hôpital steps. C51_*_condition_needed: the false answers where the condition fails."
  },
  {
   "property": "C52",
   "status": "proved",
   "theorems": [
    "SymRust.C52_infinity_over_infinity",
    "SymRust.C52_infinity_plus_infinity",
    "SymRust.C52_infinity_times_infinitesimal",
    "SymRust.C52_infinitesimal_plus_infinity",
    "SymRust.C52_example"
   ],
   "note": "Props/LimitFull. From C51's invariant: poles stay poles under differentiation, so no step can resolve these forms."
  },
  {
   "property": "C53",
   "status": "proved",
   "theorems": [
    "SymRust.C53_terminates",
    "SymRust.C53_not_diverges",
    "SymRust.C53_example"
   ],
   "note": "Props/LimitTerm. Every expression is described by a tree over abstract numbers on which num_aggregate and derivative are total functions (Proofs/EndTree; the tie is Proofs/EndLink). By induction on the nesting of sines, after finitely many derivatives a tree has derivative 0 or contains a negation, subtraction, power, exponential or logarithm outside sin and cos, on which limit panics (Proofs/EndFine)."
  },
  {
   "property": "C54",
   "status": "proved",
   "theorems": [
    "SymRust.C54_enclosure",
    "SymRust.C54_f64",
    "SymRust.C54_f64_error_bound",
    "SymRust.C54_example",
    "SymRust.C54_error_bound",
    "SymRust.C54_exact_value",
    "SymRust.C54_arithmetic"
   ],
   "note": "Props/{Rounding, Float64}. Forward error analysis by induction on Agg: every node's result, and its float, stay within the propagated bound (Proofs/RoundAgg); closed form for arithmetic by growth factors (1-9u)^-k (RoundArith). The rounding law is proved of IEEE-754 doubles (Proofs/Float64*, F64.rounding), so C54_f64 has no hypothesis on floats."
  },
  {
   "property": "C55",
   "status": "proved",
   "theorems": [
    "SymRust.C55_f64_to_f64",
    "SymRust.C55_f64_is_close",
    "SymRust.C55_f64_near",
    "SymRust.C55_margin_needed",
    "SymRust.C55_to_f64",
    "SymRust.C55_is_close",
    "SymRust.C55_near"
   ],
   "note": "Props/{Rounding, Float64}. The five roundings of a fraction's to_f64 bounded together (conv_error), then the triangle inequality around eps. C55_f64_*: doubles, explicit constants; C55_margin_needed: 2^53 and 2^53+1 are judged within 0.5 by is_close but not by near."
  },
  {
   "property": "C56",
   "status": "proved",
   "theorems": [
    "SymRust.C56_derivative",
    "SymRust.C56_degree",
    "SymRust.C56_expansion",
    "SymRust.C56_exact",
    "SymRust.C56_pow_excluded",
    "SymRust.C56_pow_never_zero",
    "SymRust.C56_example",
    "SymRust.C56_example_conditions"
   ],
   "note": "Props/Poly. PolyIn (Spec/Poly) is preserved by derivative with the degree lowered; at degree 0 the derivative folds to the literal 0 (AggZero). C56_exact: the Taylor formula of a real polynomial (Mathlib) with C34."
  },
  {
   "property": "C57",
   "status": "proved",
   "theorems": [
    "SymRust.C57_sin",
    "SymRust.C57_cos",
    "SymRust.C57_exp",
    "SymRust.C57_derivatives"
   ],
   "note": "Props/TaylorTotal. nthDerivative in closed form by induction (period 4), then C33_succeeds; the 21 quotients by factorials are computed by the kernel for each k <= 20, which is the whole range the claim is about."
  },
  {
   "property": "C58",
   "status": "proved",
   "theorems": [
    "SymRust.C58_num_aggregate",
    "SymRust.C58_substitute",
    "SymRust.C58_derivative",
    "SymRust.C58_nth_derivative",
    "SymRust.C58_taylor",
    "SymRust.C58_limit",
    "SymRust.C58_injective_needed",
    "SymRust.C58_example"
   ],
   "note": "Props/Rename. Commutation by induction on trees and on the recursion bound, as for the change of the float type (Proofs/Map). C58_injective_needed: the counterexample for non-injective renamings."
  },
  {
   "property": "C59",
   "status": "proved",
   "theorems": [
    "SymRust.C59_partials",
    "SymRust.C59_order_irrelevant",
    "SymRust.C59_example"
   ],
   "note": "Props/Partial. Where a value and positive power bases exist the function is C-infinity in all variables jointly on an open set; the derivative is the partial derivative by C30, and Mathlib's symmetry of second derivatives gives the order independence for adjacent swaps, then for permutations."
  },
  {
   "property": "C60",
   "status": "proved",
   "theorems": [
    "SymRust.C60_chain",
    "SymRust.C60_chain_same",
    "SymRust.C60_example"
   ],
   "note": "Props/Partial. C30 for all four derivatives; the real chain rule for two variables from joint differentiability. SafeD.replace: the restrictions survive the substitution if NoLnIntoBase."
  },
  {
   "property": "C61",
   "status": "proved",
   "theorems": [
    "SymRust.C61_number",
    "SymRust.C61_evaluation",
    "SymRust.C61_example"
   ],
   "note": "Props/Eval. RatValue (Spec/Eval) is preserved by each substitution until no variable is left, then C25."
  },
  {
   "property": "C62",
   "status": "proved",
   "theorems": [
    "SymRust.C62_derivative_size",
    "SymRust.C62_nth_derivative_size",
    "SymRust.C62_quadratic",
    "SymRust.C62_example",
    "SymRust.C62_taylor_size"
   ],
   "note": "Props/Growth. Induction on the derivation Der; each rule adds at most 4 copies of the operands and num_aggregate does not grow (C23). C62_quadratic: the nested sines."
  },
  {
   "property": "C63",
   "status": "proved",
   "theorems": [
    "SymRust.C63_rounding",
    "SymRust.C63_error_bound",
    "SymRust.C63_example"
   ],
   "note": "Props/Enclose. Encloses (Spec/Enclose) is rounding interval arithmetic with sets. num_aggregate and the differentiation rules are decomposed into elementary simplifications (Red, Proofs/EncloseRed: dropping 0 and 1, folding numbers, a common factor in the quotient and power rules, ...), each of which keeps enclosures and commutes with the textbook derivative; so the returned k-th derivative is reached from textbookN by simplifications only. The exact derivative: textbook_iterated."
  },
  {
   "property": "C64",
   "status": "proved",
   "theorems": [
    "SymRust.C64_rounding",
    "SymRust.C64_arithmetic",
    "SymRust.C64_example"
   ],
   "note": "Props/Enclose. As C63, then Cov.replace (substituting an enclosed point) and agg_cov for the two num_aggregate calls. C64_arithmetic: the error bound of C54_arithmetic read as an enclosure."
  },
  {
   "property": "C65",
   "status": "proved",
   "theorems": [
    "SymRust.C65_rounding",
    "SymRust.C65_arithmetic",
    "SymRust.C65_number",
    "SymRust.C65_example"
   ],
   "note": "Props/EncloseLimit. limit_meansC: the induction of limit_means (C42) with enclosures instead of values (every answer lies in the enclosure; a divisor whose enclosure omits 0 never triggers an L'Hopital step); limit_number for the arithmetic case; limit_exact (exact shadow run) for Infinitesimal."
  },
  {
   "property": "C66",
   "status": "proved",
   "theorems": [
    "SymRust.C66_rounding",
    "SymRust.C66_arithmetic",
    "SymRust.C66_example"
   ],
   "note": "Props/EncloseLHopital. The run is shadowed by an exact one in which every float carries the real number it stands for (R.lift, Proofs/GhostR; float-dependent branches agree by limit_map), so C50's analysis (lhopital_steps) applies: lower derivatives vanish exactly. limit_meansC on the i-th derivatives (nthDerivative_red, Vanish for sin and cos at 0) puts the answer in the enclosure."
  },
  {
   "property": "C67",
   "status": "proved",
   "theorems": [
    "SymRust.C67_simplify",
    "SymRust.C67_repeated",
    "SymRust.C67_derivatives",
    "SymRust.C67_derivative",
    "SymRust.C67_taylor",
    "SymRust.C67_leaves",
    "SymRust.C67_evaluation",
    "SymRust.C67_sharp",
    "SymRust.C67_example",
    "SymRust.C67_example_evaluation"
   ],
   "note": "Props/Height. Number operations (Proofs/Height): each fits if the bounds of its result do, and the result is within them. Below (Proofs/HeightExpr) relates an expression to what num_aggregate can turn it into; it lowers the bounds, survives differentiation without simplification and substitution, and every num_aggregate of a Small expression is a Below step (Agg.belowHeight). Success is proved in the build `strict` and carried to the others by monotonicity (C07). C67_leaves: 2n and 2d are at most (2B)^s by induction."
  },
  {
   "property": "C68",
   "status": "proved",
   "theorems": [
    "SymRust.C68_form_needed",
    "SymRust.C68_release",
    "SymRust.C68_release_iff",
    "SymRust.C68_every_build",
    "SymRust.C68_at_value",
    "SymRust.C68_rational_function",
    "SymRust.C68_example_rational",
    "SymRust.C68_example_trig",
    "SymRust.C68_example_value"
   ],
   "note": "Props/LimitForm. `LimitForm` (Spec/LimitForm) describes the covered expressions. By induction over it: each rule's answer is finite and, if schoolbook fractions are small, `Below` the expression with the point put in (C67's relation), so num_aggregate of it cannot overflow; divisors have a nonzero value, so their answer is a Normal that is not the number 0 (C42's invariant over exact floats, or exact rational folding). Instances proved: (x*x+1)/(x+3) at 4, x*y+sin(x/y-1) at 1/2, x*x/(x+y) at 2."
  },
  {
   "property": "C69",
   "status": "proved",
   "theorems": [
    "SymRust.C69_evaluation",
    "SymRust.C69_pole_missed"
   ],
   "note": "Props/LimitEval. induction on the expression: with all answers Normal every rule is one num_aggregate step, and num_aggregate of an aggregated subterm without double negation is itself; the pole by computation and a Mathlib limit"
  },
  {
   "property": "C70",
   "status": "proved",
   "theorems": [
    "SymRust.C70_debug",
    "SymRust.C70_every_build",
    "SymRust.C70_bounds_example",
    "SymRust.C70_lowest_power",
    "SymRust.C70_answer",
    "SymRust.C70_true",
    "SymRust.C70_release",
    "SymRust.C70_example"
   ],
   "note": "Props/PosPoly. `PosPoly x i e` (Spec/PosPoly) is the syntactic form with its lowest power. num_aggregate keeps it, derivative lowers it by one (a value of ℕ∞, ⊤ for the literal 0), limit at 0 sees it; induction over the L'Hopital loop. Truth: t^i g(t) with g continuous for Infinitesimal and Infinity, the exact-float L'Hopital analysis of C50 for Normal. Release: the form number/variable/+/* is closed under derivative, and C68. Debug (Props/EveryBuild): the bounds of C67 are kept by derivative and substitution. Instance: (3xx + yxxx)/(x*2x)"
  },
  {
   "property": "C71",
   "status": "proved",
   "theorems": [
    "SymRust.C71_every_build",
    "SymRust.C71_order",
    "SymRust.C71_answer",
    "SymRust.C71_aborts",
    "SymRust.C71_true",
    "SymRust.C71_example",
    "SymRust.C71_one_minus_cos"
   ],
   "note": "Props/SinPoly. `SinPoly x i e` (Spec/SinPoly) with order of vanishing. Derivatives raise a level: polynomial / sines / cosines; an expression of the last level has a derivative with a minus sign that num_aggregate cannot remove and limit meets (Minus). Truth as in C70, with sin u = u sinc u. C71_aborts holds in every build; C71_every_build (Props/EveryBuild) is the exact case distinction. Instances: sin(3x)/(2x), sin(x)sin(x)/(xx), (1-cos x)/x"
  },
  {
   "property": "C72",
   "status": "proved",
   "theorems": [
    "SymRust.C72_zero_add",
    "SymRust.C72_add_zero",
    "SymRust.C72_sub_zero",
    "SymRust.C72_one_mul",
    "SymRust.C72_mul_one",
    "SymRust.C72_mul_zero",
    "SymRust.C72_zero_div",
    "SymRust.C72_div_one",
    "SymRust.C72_neg_neg",
    "SymRust.C72_ln_exp",
    "SymRust.C72_exp_ln",
    "SymRust.C72_congruence",
    "SymRust.C72_example"
   ],
   "note": "Props/Laws. equations between outcomes of num_aggregate (`SameResult`, Spec/Laws); cases on the simplified operand, which is a number or in normal form (C26). C72_div_one records that e/1 stays. Instance with the exception for --e"
  },
  {
   "property": "C73",
   "status": "proved",
   "theorems": [
    "SymRust.C73_series",
    "SymRust.C73_unique",
    "SymRust.C73_true",
    "SymRust.C73_geometric",
    "SymRust.C73_log",
    "SymRust.C73_example",
    "SymRust.C73_taylor"
   ],
   "note": "Props/{Series,SeriesTrue}. `HasSeries x p e f` (Spec/Series): Mathlib's power series over Q with +, *, inverse and substitution into sin, cos, exp; ln u is the l with exp(l) = u. The derivative of e has the series d/dX f (per rule, up to the simplifications, which keep the series), the value at p is the constant term, an exact rational; C33 then gives the coefficient. C73_true compares with C34; C73_geometric and C73_log are instances for every order."
  },
  {
   "property": "C74",
   "status": "proved",
   "theorems": [
    "SymRust.C74_sum",
    "SymRust.C74_product",
    "SymRust.C74_quotient",
    "SymRust.C74_lhopital",
    "SymRust.C74_failure",
    "SymRust.C74_example"
   ],
   "note": "Props/LimitAlgebra. outcomes are `LimitIs`, `LimitErr`, `LimitPanics` (Spec/Limit), independent of the recursion depth; `LimitSimplified` is Normal of what num_aggregate makes of c. The recursion is unfolded once at a depth where both operands have their outcome; Infinitesimal + Infinity goes through the rewriting (a/b + 1)/(1/b); L'Hopital by monotonicity of the loop in order_try. Instances: x + 1/x and sin(x)/x in every build"
  },
  {
   "property": "C75",
   "status": "proved",
   "theorems": [
    "SymRust.C75_text",
    "SymRust.C75_total",
    "SymRust.C75_iff",
    "SymRust.C75_meaning",
    "SymRust.C75_examples"
   ],
   "note": "Props/LimitDisplay. `SameText` (Spec/LimitDisplay). C40 rules out BoundedFluctuation, C19 makes the answer printable, C47 decides between finite answers and against the texts 0 and infinity. `Describes` (Spec/LimitSem) is the meaning. Both coincidences are shown to happen"
  },
  {
   "property": "C76",
   "status": "proved",
   "theorems": [
    "SymRust.C76_finite",
    "SymRust.C76_infinite",
    "SymRust.C76_example"
   ],
   "note": "Props/LimitEnclose. `Tracks` (Spec/LimitEnclose) is the error propagation, by rule induction; leaves are C65 and C66 in their strong form (`MeansC`: the answer and all its evaluations are in S). `GoesOn` says that the L'Hopital search did not stop earlier. Sums, products and quotients combine by add_meansC, mul_meansC, div_meansC; the limits by Mathlib's filters. Instances in IEEE doubles"
  },
  {
   "property": "C77",
   "status": "proved",
   "theorems": [
    "SymRust.C77_integers",
    "SymRust.C77_mul_div",
    "SymRust.C77_add_sub",
    "SymRust.C77_add_sub_panics",
    "SymRust.C77_panics_iff",
    "SymRust.C77_integer_quotient",
    "SymRust.C77_wraps",
    "SymRust.C77_mixed",
    "SymRust.C77_mixed_release"
   ],
   "note": "Props/{Overflow,OverflowMixed}. `WrapsTo`, `Stores`, `IntSpec`, `WrittenAs` (Spec/Overflow). Unfolding of the machine operations: congruences modulo 2^64 compose (linear_combination), `abs() as u64` is right even for i64::MIN; overflow-checking builds return exactly if every step fits. Witnesses of wrong release results"
  },
  {
   "property": "C78",
   "status": "proved",
   "theorems": [
    "SymRust.C78_residual",
    "SymRust.C78_lagrange",
    "SymRust.C78_error_bound",
    "SymRust.C78_sin",
    "SymRust.C78_exp"
   ],
   "note": "Props/Residual. `ValueBetween` (Spec/Residual). C33 (the residual is derivative n+1), iterated C30, C34 and Mathlib's Lagrange remainder; instances for sin and exp from C57"
  },
  {
   "property": "C79",
   "status": "proved",
   "theorems": [
    "SymRust.C79_text",
    "SymRust.C79_value",
    "SymRust.C79_read",
    "SymRust.C79_leading_minus",
    "SymRust.C79_exp"
   ],
   "note": "Props/TaylorText. `polynomial` (Spec/TaylorText). C38 (the printed text), the display rules of + * ^ around numbers and quotients by numbers (every coefficient is one of these), C20 for x - a, C47 for reading back; C79_leading_minus shows the restriction is needed, C79_exp an instance"
  },
  {
   "property": "C80",
   "status": "proved",
   "theorems": [
    "SymRust.C80_checked",
    "SymRust.C80_release",
    "SymRust.C80_reduce",
    "SymRust.C80_number",
    "SymRust.C80_same",
    "SymRust.C80_same_checked",
    "SymRust.C80_returns",
    "SymRust.C80_grouping_matters"
   ],
   "note": "Props/IntPoly. `Writes R e P` (Spec/IntPoly), P a Mathlib MvPolynomial over ℤ or ZMod (2^64); C77 for the integer operations, induction over the rules of num_aggregate and derivative (Mathlib's pderiv, bind₁)"
  },
  {
   "property": "C81",
   "status": "proved",
   "theorems": [
    "SymRust.C81_neg",
    "SymRust.C81_add",
    "SymRust.C81_sub",
    "SymRust.C81_mul",
    "SymRust.C81_div",
    "SymRust.C81_exp",
    "SymRust.C81_ln",
    "SymRust.C81_sin_cos",
    "SymRust.C81_pow",
    "SymRust.C81_derivative",
    "SymRust.C81_instance",
    "SymRust.C81_instance_2"
   ],
   "note": "Props/ExpansionAlgebra. `PointAt`, `Expandable`, `ExpandsTo` (Spec/Expansion). C34, and the rules for Taylor coefficients of analytic functions (Leibniz; the chain rule as a recurrence); C30 for the derivative. Two instances show that the hypotheses are met for every rule"
  },
  {
   "property": "C82",
   "status": "proved",
   "theorems": [
    "SymRust.C82_composition",
    "SymRust.C82_linear",
    "SymRust.C82_chain_rule",
    "SymRust.C82_instance"
   ],
   "note": "Props/ExpansionComp. `polynomialOf` (Spec/Expansion), Mathlib's Polynomial.comp. C34, C27; Taylor's formula for a composition of analytic functions as formal power series, by iterating dslope"
  },
  {
   "property": "C83",
   "status": "proved",
   "theorems": [
    "SymRust.C83_quotient",
    "SymRust.C83_value",
    "SymRust.C83_instance"
   ],
   "note": "Props/LimitExpansion. C51 (answers of limit are true), C34 through C81's `Expandable.coefficient`, and the limit of a quotient of analytic functions from their first Taylor coefficients (dslope). C83_instance: sin(x) / x and cos(x) at 0"
  },
  {
   "property": "C84",
   "status": "proved",
   "theorems": [
    "SymRust.C84_equal_functions",
    "SymRust.C84_simplify_first",
    "SymRust.C84_instance",
    "SymRust.C84_condition_needed"
   ],
   "note": "Props/SameLimit. `LimitExpression.Names` (Spec/SameLimit). C51 for both runs and uniqueness of limits; for num_aggregate also C20. C84_instance: (sin(x) * 1) / x and its simplified form; C84_condition_needed"
  },
  {
   "property": "C85",
   "status": "proved",
   "theorems": [
    "SymRust.C85_coefficients_iff",
    "SymRust.C85_equal_functions",
    "SymRust.C85_derivative",
    "SymRust.C85_instance",
    "SymRust.C85_derivative_instance"
   ],
   "note": "Props/SameExpansion. `PointAt`, `Expandable`, `ExpandsTo` (Spec/Expansion), Mathlib's =o. C30 and C34; an analytic function has no coefficients up to N iff it is o((t - p)^N). C85_instance: sin(x) and x at 0; C85_derivative_instance: sin(x) + sin(x) and 2 * sin(x)"
  },
  {
   "property": "C86",
   "status": "proved",
   "theorems": [
    "SymRust.C86_limit",
    "SymRust.C86_taylor",
    "SymRust.C86_eliminated",
    "SymRust.C86_instance"
   ],
   "note": "Props/LimitVars. `Occurs` (Spec/Expr). Induction on the recursion of limit with an invariant on the variables of all expressions the search builds (C22, C28, C32); C33 for expansions. C86_instance"
  },
  {
   "property": "C87",
   "status": "proved",
   "theorems": [
    "SymRust.C87_determined",
    "SymRust.C87_integer",
    "SymRust.C87_to_f64",
    "SymRust.C87_fraction",
    "SymRust.C87_order",
    "SymRust.C87_add",
    "SymRust.C87_sub",
    "SymRust.C87_mul",
    "SymRust.C87_div",
    "SymRust.C87_neg",
    "SymRust.C87_is_close",
    "SymRust.C87_is_close_integers",
    "SymRust.C87_bound_needed",
    "SymRust.C87_instance"
   ],
   "note": "Props/Nearest. CorrectlyRounded (Spec/Float64) is stated with the values of all finite doubles; C87_determined: it fixes the value. Lean's rounding is shown to pick a nearest multiple of the last place, ties even (Proofs/Float64Round, Float64Ops), and no double off that grid is nearer; uniqueness since between two doubles with even mantissas lies another (Proofs/Float64Unique). C87_bound_needed, C87_instance"
  },
  {
   "property": "C88",
   "status": "proved",
   "theorems": [
    "SymRust.C88_nan",
    "SymRust.C88_infinity_finite",
    "SymRust.C88_infinities",
    "SymRust.C88_infinity_product",
    "SymRust.C88_div_float_zero",
    "SymRust.C88_infinity_zero",
    "SymRust.C88_is_close",
    "SymRust.C88_instance"
   ],
   "note": "Props/Special. Case analysis of the code's short cuts (Special.add_cases etc.) over Lean's float model, whose pack/unpack round trip is proved (Proofs/Float64). C88_instance: largest double plus itself, inf - inf, exact 0 times inf, 1/-0.0"
  },
  {
   "property": "C89",
   "status": "proved",
   "theorems": [
    "SymRust.C89_evaluation",
    "SymRust.C89_floats",
    "SymRust.C89_simplify_first",
    "SymRust.C89_f64",
    "SymRust.C89_instance",
    "SymRust.C89_tidy_needed"
   ],
   "note": "Props/Formula. Formula, Formula.compute, float?, Tidy, Gives (Spec/Formula). Induction on the formula (C89_evaluation, C89_floats); C89_simplify_first: each rule of num_aggregate keeps the computed value, given -(-f) = f, which C89_f64 proves of the doubles (Proofs/Float64Bits: pack inverts unpack). C89_instance: (1*x+0)+(-(-y)) at 0.1, 0.2; C89_tidy_needed"
  },
  {
   "property": "C90",
   "status": "proved",
   "theorems": [
    "SymRust.C90_substitution",
    "SymRust.C90_translation",
    "SymRust.C90_instance",
    "SymRust.C90_translation_instance"
   ],
   "note": "Props/LimitSubst. `LimitExpression.Names` (Spec/SameLimit). C51 for the three runs, C27 for the substitution, composition and uniqueness of limits. C90_instance: sin(x)/x with y + y for x; C90_translation_instance: x*x at 3 and (x+3)*(x+3) at 0"
  },
  {
   "property": "C91",
   "status": "proved",
   "theorems": [
    "SymRust.C91_increment",
    "SymRust.C91_first_coefficient",
    "SymRust.C91_instance",
    "SymRust.C91_increment_instance",
    "SymRust.C91_symbolic_point_wrong",
    "SymRust.C91_quotient_form_wrong"
   ],
   "note": "Props/DifferenceQuotient. C51 for the quotient, C27 for the two substitutions, C30 and C34 for the derivative and the coefficient; Mathlib's derivative as a limit of slopes. C91_instance: x*x at 3; C91_increment_instance: sin(x) at 0; C91_quotient_form_wrong, C91_symbolic_point_wrong"
  },
  {
   "property": "C92",
   "status": "proved",
   "theorems": [
    "SymRust.C92_order",
    "SymRust.C92_squeeze",
    "SymRust.C92_near",
    "SymRust.C92_infinity",
    "SymRust.C92_instance"
   ],
   "note": "Props/LimitOrder. `Question`, `LimitExpression.Is`, `LeqNear` (Spec/LimitOrder). C51 and Mathlib's order limits. C92_instance: x*sin(x) between -x*x and x*x at 0, cos(x), 1/x"
  },
  {
   "property": "C93",
   "status": "proved",
   "theorems": [
    "SymRust.C93_answer",
    "SymRust.C93_err",
    "SymRust.C93_panic",
    "SymRust.C93_instance"
   ],
   "note": "Props/LHopitalTrace. `Attempt`, `NoneBefore`, `Quotient`, `Returned` (Spec/LHopital). Induction on the number of attempts left; the recursion bound is removed with limit_stable (every limit has an outcome, C38). C93_answer, C93_err, C93_panic are all exact characterisations; C93_instance: sin(x)/x with order 1 and 0, x/exp(x)"
  },
  {
   "property": "C94",
   "status": "proved",
   "theorems": [
    "SymRust.C94_mean_value",
    "SymRust.C94_growth",
    "SymRust.C94_bound",
    "SymRust.C94_extremum",
    "SymRust.C94_integral",
    "SymRust.C94_same_derivative",
    "SymRust.C94_instance"
   ],
   "note": "Props/Monotone. C30 at every place of the segment (`ValueBetween`, Spec/Residual), then Mathlib's mean value theorems. C94_mean_value, C94_growth, C94_bound, C94_extremum, C94_same_derivative, C94_integral; C94_instance: x*x and x*x + 5"
  },
  {
   "property": "C95",
   "status": "proved",
   "theorems": [
    "SymRust.C95_leading",
    "SymRust.C95_extremum",
    "SymRust.C95_necessary",
    "SymRust.C95_instance"
   ],
   "note": "Props/FirstTerm. The remainder of C35 is negligible against (s - p)^k; the sign of the quotient near the point. C95_leading, C95_extremum, C95_necessary; C95_instance: cos(x) at 0 to order 2"
  },
  {
   "property": "C96",
   "status": "proved",
   "theorems": [
    "SymRust.C96_terms",
    "SymRust.C96_lowest_power",
    "SymRust.C96_covers_C70",
    "SymRust.C96_answer",
    "SymRust.C96_every_build",
    "SymRust.C96_true",
    "SymRust.C96_sign",
    "SymRust.C96_condition_needed",
    "SymRust.C96_instance",
    "SymRust.C96_instance_signs"
   ],
   "note": "Props/Uncancelled. `Signs` fixes the signs of the variables. Sets of pairs (sign, power) as patterns: num_aggregate keeps the pattern of a sum or product unless signs clash, derivative lowers it (product rule = derivative of the product pattern), limit at 0 keeps the constant terms; L'Hopital loop by induction; values as Mathlib polynomials, signs of sums over the antidiagonal. C96_terms, C96_lowest_power, C96_answer, C96_true, C96_sign, C96_every_build, C96_covers_C70 (PosPoly is a special case), C96_condition_needed; C96_instance: ((-3)xx + yxxx)/(x*2x) and (x + (-1)xx)/(x*2x); C96_instance_signs: y + (-1)z with z negative"
  },
  {
   "property": "C97",
   "status": "proved",
   "theorems": [
    "SymRust.C97_repeated",
    "SymRust.C97_few_zeros",
    "SymRust.C97_polynomial",
    "SymRust.C97_curvature",
    "SymRust.C97_tangent",
    "SymRust.C97_critical",
    "SymRust.C97_necessary",
    "SymRust.C97_instance"
   ],
   "note": "Props/Curvature. k-th result = k-th derivative by induction over exact floats (C30), then Rolle k times for the zeros, Taylor's theorem for polynomials, Mathlib's convexity criteria. C97_repeated, C97_few_zeros, C97_polynomial, C97_curvature, C97_tangent, C97_critical, C97_necessary; C97_instance: exp(x), sin(x), x*x + 5"
  },
  {
   "property": "C98",
   "status": "proved",
   "theorems": [
    "SymRust.C98_between",
    "SymRust.C98_side",
    "SymRust.C98_first_error",
    "SymRust.C98_instance"
   ],
   "note": "Props/OneSided. Taylor's theorem with the returned residual (C78_lagrange), its sign times the sign of (s-p)^(n+1); the remainder one order higher for the first error term. C98_between, C98_side, C98_first_error; C98_instance: exp(x) at 0 for all n up to 20"
  },
  {
   "property": "C99",
   "status": "proved",
   "theorems": [
    "SymRust.C99_exists",
    "SymRust.C99_unique",
    "SymRust.C99_distance",
    "SymRust.C99_newton",
    "SymRust.C99_instance"
   ],
   "note": "Props/Zeros. Continuity from the smoothness of values; the mean value theorem of C94; Taylor's theorem of order 1 with the second derivative of C97. C99_exists, C99_unique, C99_distance, C99_newton; C99_instance: the zero of x*x - 2 between 1 and 2, Newton's step from 3/2 to 17/12"
  }
 ]
}