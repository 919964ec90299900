#!/usr/bin/env python3
# Source of tools/notes.json (the notes in MANIFEST.json) and of the property table in DESIGN.md (section 4).
# Run:  python3 tools/notes.py
import json,os,re
root=os.path.dirname(os.path.dirname(os.path.abspath(__file__)))
N={
"C01":("Rational","ℚ-value of a triple; cross-multiplication of reduced triples; gcd = Nat.gcd. eq_refl/symm/trans have no hypotheses at all."),
"C02":("Rational","Induction of Euclid's algorithm against Nat.gcd; holds for every bit pattern, also 0/0."),
"C03":("Rational","Case analysis on the stored sign over all i64; the one panicking argument (abs of i64::MIN in debug) is characterised by an iff. new_positive and new_negative included."),
"C04":("Rational","Mode `strict` = nothing wrapped. C04_cast_wraps is the counterexample without the cast condition (debug build, wrong sign, no panic)."),
"C05":("Rational","As C04, but for the debug build itself (no cast involved)."),
"C06":("Rational","Bounds on all intermediate products, for all pairs below 2^31 and every Mode."),
"C07":("Number, Structure, LimitShape","Relation 'debug panics or both agree', shown monotone through bind, then induction over tree / order / recursion bound."),
"C08":("Structure","Release primitives are total; induction over built trees. limit is excluded (C39) and is stated so."),
"C09":("Number","Invariant over the inductive set Reachable of numbers obtainable by any sequence of API operations, in any Mode."),
"C10":("Number","Case analysis over representations, C04/C05 for rationals; C10_no_floats excludes the float fallback."),
"C11":("Number","For every float implementation and every x (also NaN): same record back, flag included."),
"C12":("Number, DivZero","All numbers; what becomes of n/0 afterwards."),
"C13":("Number, Float64","All widths; the u64 case is exact iff < 2^63 and otherwise wraps, proved as an iff. C13_f32: widening never rounds, from the bit-level definitions (Proofs/Float32)."),
"C14":("Number, Float64","The property as first imagined fails for rational zeros; C14_sign_rational_zero states what happens there. C14_f64: doubles, with zeros, infinities and NaN."),
"C15":("Number","to_rational panic condition proved as an iff."),
"C16":("Number, Structure, Float64","For any float type with the needed laws as hypotheses (|a-b| = |b-a|, a-a = 0, 0 < eps), and for IEEE-754 doubles without hypotheses (C16_f64_*)."),
"C17":("Number, Float64","Text of every number; injective on integers. C17_f64: the text of a finite double is a decimal with three digits within 0.0005 of it."),
"C18":("Number, Float64","Exact numbers: unconditional (both panic or same value). Other float types: commutativity as hypothesis. C18_f64: IEEE-754 doubles, no hypothesis."),
"C19":("Structure","Well-formedness is preserved by every operation, by induction; C19_meaning spells the predicate out node by node."),
"C20":("Semantics","Real-valued semantics (Spec/Semantics). C20_value: every float implementation, value compared where defined exactly (StandsFor). C20_value_exact_floats: exact float arithmetic, all floats. C20_value_of_rules: same with the syntactic side condition."),
"C21":("Aggregate, Semantics","The negation of C20 at its excluded points, for all r and u, with the values shown to differ."),
"C22":("Aggregate","Induction on the aggregation relation Agg, which is proved equivalent to num_aggregate."),
"C23":("Aggregate","Induction; C23_converges counts passes."),
"C24":("Aggregate","Fixed points characterised by an iff; explicit family needing more than n passes for every n."),
"C25":("Aggregate","Independent evaluator ConstValue into ℚ."),
"C26":("Aggregate","NormalAt at every subterm of every result."),
"C27":("Structure, Semantics","Both directions of definedness."),
"C28":("Structure","Sizes by exact count of occurrences."),
"C29":("Structure","Both overloads of all four entry points."),
"C30":("Semantics","Mathlib HasDerivAt. C30_derivative for every float implementation, C30_derivative_exact_floats for exact floats."),
"C31":("Structure","In every Mode."),
"C32":("Structure","Induction on the derivative relation Der, proved equivalent to derivative."),
"C33":("Taylor, TaylorTotal","Loop invariant; nthDerivative is an independent recursion. C33_succeeds: exactly when an expansion exists."),
"C34":("Semantics","iteratedDeriv of the denoted function. C34_restrictions_needed: the four wrong expansions."),
"C35":("Semantics","Mathlib's Taylor theorem on top of C34."),
"C36":("Taylor, TaylorTotal","Factorials against Nat.factorial; exp at 0 shows order 20 does succeed; C36_release_wrong: order 21 in release."),
"C37":("Taylor","Loop invariant."),
"C38":("Taylor, Display","Induction over the coefficient list; shownTerms is the independent specification of which coefficients are shown."),
"C39":("LimitShape","Every Mode, operand, point, order, recursion bound."),
"C40":("LimitShape","Induction on the recursion bound."),
"C41":("LimitArith","For all functions along all filters. The two conditions are shown necessary by concrete functions."),
"C42":("LimitSem","Induction on the recursion bound with continuity from C30's smoothness lemma."),
"C43":("LimitShape, LimitSem","C43_sin_at_zero for all arguments; C43_wrong is the false answer."),
"C44":("LimitShape","Simulation between runs with different order_try."),
"C45":("LimitShape","Explicit recursion bound (size), so termination is not assumed by the model."),
"C46":("Display, Structure","Priorities and parentheses for every operator and operand."),
"C47":("Readback","Reference reader of tokens; regrouping as an independent inductive relation; iff."),
"C48":("Structure","All leaves and operators."),
"C49":("Main","main has no input: evaluated by the kernel for both builds and every FloatOps F; exp coefficients for every order up to 20."),
"C50":("LimitSem","Taylor expansions of dividend and divisor; the false answer at the excluded point is C50_zero_over_zero_wrong."),
"C51":("LimitFull","Induction on the recursion bound over meromorphic germs (Mathlib Meromorphic.Order): every rewriting and any nesting of L'Hôpital steps. C51_*_condition_needed: the false answers where the condition fails."),
"C52":("LimitFull","From C51's invariant: poles stay poles under differentiation, so no step can resolve these forms."),
"C53":("LimitTerm","Every expression is described by a tree over abstract numbers on which num_aggregate and derivative are total functions (Proofs/EndTree; the tie is Proofs/EndLink). By induction on the nesting of sines, after finitely many derivatives a tree has derivative 0 or contains a negation, subtraction, power, exponential or logarithm outside sin and cos, on which limit panics (Proofs/EndFine)."),
"C54":("Rounding, Float64","Forward error analysis by induction on Agg: every node's result, and its float, stay within the propagated bound (Proofs/RoundAgg); closed form for arithmetic by growth factors (1-9u)^-k (RoundArith). The rounding law is proved of IEEE-754 doubles (Proofs/Float64*, F64.rounding), so C54_f64 has no hypothesis on floats."),
"C55":("Rounding, Float64","The five roundings of a fraction's to_f64 bounded together (conv_error), then the triangle inequality around eps. C55_f64_*: doubles, explicit constants; C55_margin_needed: 2^53 and 2^53+1 are judged within 0.5 by is_close but not by near."),
"C56":("Poly","PolyIn (Spec/Poly) is preserved by derivative with the degree lowered; at degree 0 the derivative folds to the literal 0 (AggZero). C56_exact: the Taylor formula of a real polynomial (Mathlib) with C34."),
"C57":("TaylorTotal","nthDerivative in closed form by induction (period 4), then C33_succeeds; the 21 quotients by factorials are computed by the kernel for each k <= 20, which is the whole range the claim is about."),
"C58":("Rename","Commutation by induction on trees and on the recursion bound, as for the change of the float type (Proofs/Map). C58_injective_needed: the counterexample for non-injective renamings."),
"C59":("Partial","Where a value and positive power bases exist the function is C-infinity in all variables jointly on an open set; the derivative is the partial derivative by C30, and Mathlib's symmetry of second derivatives gives the order independence for adjacent swaps, then for permutations."),
"C60":("Partial","C30 for all four derivatives; the real chain rule for two variables from joint differentiability. SafeD.replace: the restrictions survive the substitution if NoLnIntoBase."),
"C61":("Eval","RatValue (Spec/Eval) is preserved by each substitution until no variable is left, then C25."),
"C62":("Growth","Induction on the derivation Der; each rule adds at most 4 copies of the operands and num_aggregate does not grow (C23). C62_quadratic: the nested sines."),
"C63":("Enclose","Encloses (Spec/Enclose) is rounding interval arithmetic with sets. num_aggregate and the differentiation rules are decomposed into elementary simplifications (Red, Proofs/EncloseRed: dropping 0 and 1, folding numbers, a common factor in the quotient and power rules, ...), each of which keeps enclosures and commutes with the textbook derivative; so the returned k-th derivative is reached from textbookN by simplifications only. The exact derivative: textbook_iterated."),
"C64":("Enclose","As C63, then Cov.replace (substituting an enclosed point) and agg_cov for the two num_aggregate calls. C64_arithmetic: the error bound of C54_arithmetic read as an enclosure."),
"C65":("EncloseLimit","limit_meansC: the induction of limit_means (C42) with enclosures instead of values (every answer lies in the enclosure; a divisor whose enclosure omits 0 never triggers an L'Hopital step); limit_number for the arithmetic case; limit_exact (exact shadow run) for Infinitesimal."),
"C66":("EncloseLHopital","The run is shadowed by an exact one in which every float carries the real number it stands for (R.lift, Proofs/GhostR; float-dependent branches agree by limit_map), so C50's analysis (lhopital_steps) applies: lower derivatives vanish exactly. limit_meansC on the i-th derivatives (nthDerivative_red, Vanish for sin and cos at 0) puts the answer in the enclosure."),
"C67":("Height","Number operations (Proofs/Height): each fits if the bounds of its result do, and the result is within them. Below (Proofs/HeightExpr) relates an expression to what num_aggregate can turn it into; it lowers the bounds, survives differentiation without simplification and substitution, and every num_aggregate of a Small expression is a Below step (Agg.belowHeight). Success is proved in the build `strict` and carried to the others by monotonicity (C07). C67_leaves: 2n and 2d are at most (2B)^s by induction."),
"C68":("LimitForm","`LimitForm` (Spec/LimitForm) describes the covered expressions. By induction over it: each rule's answer is finite and, if schoolbook fractions are small, `Below` the expression with the point put in (C67's relation), so num_aggregate of it cannot overflow; divisors have a nonzero value, so their answer is a Normal that is not the number 0 (C42's invariant over exact floats, or exact rational folding). Instances proved: (x*x+1)/(x+3) at 4, x*y+sin(x/y-1) at 1/2, x*x/(x+y) at 2."),
 "C69":("LimitEval","induction on the expression: with all answers Normal every rule is one num_aggregate step, and num_aggregate of an aggregated subterm without double negation is itself; the pole by computation and a Mathlib limit"),
 "C71":("SinPoly","`SinPoly x i e` (Spec/SinPoly) with order of vanishing. Derivatives raise a level: polynomial / sines / cosines; an expression of the last level has a derivative with a minus sign that num_aggregate cannot remove and limit meets (Minus). Truth as in C70, with sin u = u sinc u. C71_aborts holds in every build; C71_every_build (Props/EveryBuild) is the exact case distinction. Instances: sin(3x)/(2x), sin(x)sin(x)/(xx), (1-cos x)/x"),
 "C72":("Laws","equations between outcomes of num_aggregate (`SameResult`, Spec/Laws); cases on the simplified operand, which is a number or in normal form (C26). C72_div_one records that e/1 stays. Instance with the exception for --e"),
 "C73":("Series,SeriesTrue","`HasSeries x p e f` (Spec/Series): Mathlib's power series over Q with +, *, inverse and substitution into sin, cos, exp; ln u is the l with exp(l) = u. The derivative of e has the series d/dX f (per rule, up to the simplifications, which keep the series), the value at p is the constant term, an exact rational; C33 then gives the coefficient. C73_true compares with C34; C73_geometric and C73_log are instances for every order."),
 "C74":("LimitAlgebra","outcomes are `LimitIs`, `LimitErr`, `LimitPanics` (Spec/Limit), independent of the recursion depth; `LimitSimplified` is Normal of what num_aggregate makes of c. The recursion is unfolded once at a depth where both operands have their outcome; Infinitesimal + Infinity goes through the rewriting (a/b + 1)/(1/b); L'Hopital by monotonicity of the loop in order_try. Instances: x + 1/x and sin(x)/x in every build"),
 "C75":("LimitDisplay","`SameText` (Spec/LimitDisplay). C40 rules out BoundedFluctuation, C19 makes the answer printable, C47 decides between finite answers and against the texts 0 and infinity. `Describes` (Spec/LimitSem) is the meaning. Both coincidences are shown to happen"),
 "C76":("LimitEnclose","`Tracks` (Spec/LimitEnclose) is the error propagation, by rule induction; leaves are C65 and C66 in their strong form (`MeansC`: the answer and all its evaluations are in S). `GoesOn` says that the L'Hopital search did not stop earlier. Sums, products and quotients combine by add_meansC, mul_meansC, div_meansC; the limits by Mathlib's filters. Instances in IEEE doubles"),
 "C77":("Overflow,OverflowMixed","`WrapsTo`, `Stores`, `IntSpec`, `WrittenAs` (Spec/Overflow). Unfolding of the machine operations: congruences modulo 2^64 compose (linear_combination), `abs() as u64` is right even for i64::MIN; overflow-checking builds return exactly if every step fits. Witnesses of wrong release results"),
 "C78":("Residual","`ValueBetween` (Spec/Residual). C33 (the residual is derivative n+1), iterated C30, C34 and Mathlib's Lagrange remainder; instances for sin and exp from C57"),
 "C80":("IntPoly","`Writes R e P` (Spec/IntPoly), P a Mathlib MvPolynomial over ℤ or ZMod (2^64); C77 for the integer operations, induction over the rules of num_aggregate and derivative (Mathlib's pderiv, bind₁)"),
 "C81":("ExpansionAlgebra","`PointAt`, `Expandable`, `ExpandsTo` (Spec/Expansion). C34, and the rules for Taylor coefficients of analytic functions (Leibniz; the chain rule as a recurrence); C30 for the derivative. Two instances show that the hypotheses are met for every rule"),
 "C82":("ExpansionComp","`polynomialOf` (Spec/Expansion), Mathlib's Polynomial.comp. C34, C27; Taylor's formula for a composition of analytic functions as formal power series, by iterating dslope"),
 "C83":("LimitExpansion","C51 (answers of limit are true), C34 through C81's `Expandable.coefficient`, and the limit of a quotient of analytic functions from their first Taylor coefficients (dslope). C83_instance: sin(x) / x and cos(x) at 0"),
 "C84":("SameLimit","`LimitExpression.Names` (Spec/SameLimit). C51 for both runs and uniqueness of limits; for num_aggregate also C20. C84_instance: (sin(x) * 1) / x and its simplified form; C84_condition_needed"),
 "C85":("SameExpansion","`PointAt`, `Expandable`, `ExpandsTo` (Spec/Expansion), Mathlib's =o. C30 and C34; an analytic function has no coefficients up to N iff it is o((t - p)^N). C85_instance: sin(x) and x at 0; C85_derivative_instance: sin(x) + sin(x) and 2 * sin(x)"),
 "C87":("Nearest","CorrectlyRounded (Spec/Float64) is stated with the values of all finite doubles; C87_determined: it fixes the value. Lean's rounding is shown to pick a nearest multiple of the last place, ties even (Proofs/Float64Round, Float64Ops), and no double off that grid is nearer; uniqueness since between two doubles with even mantissas lies another (Proofs/Float64Unique). C87_bound_needed, C87_instance"),
 "C88":("Special","Case analysis of the code's short cuts (Special.add_cases etc.) over Lean's float model, whose pack/unpack round trip is proved (Proofs/Float64). C88_instance: largest double plus itself, inf - inf, exact 0 times inf, 1/-0.0"),
 "C89":("Formula","Formula, Formula.compute, float?, Tidy, Gives (Spec/Formula). Induction on the formula (C89_evaluation, C89_floats); C89_simplify_first: each rule of num_aggregate keeps the computed value, given -(-f) = f, which C89_f64 proves of the doubles (Proofs/Float64Bits: pack inverts unpack). C89_instance: (1*x+0)+(-(-y)) at 0.1, 0.2; C89_tidy_needed"),
 "C90":("LimitSubst","`LimitExpression.Names` (Spec/SameLimit). C51 for the three runs, C27 for the substitution, composition and uniqueness of limits. C90_instance: sin(x)/x with y + y for x; C90_translation_instance: x*x at 3 and (x+3)*(x+3) at 0"),
 "C91":("DifferenceQuotient","C51 for the quotient, C27 for the two substitutions, C30 and C34 for the derivative and the coefficient; Mathlib's derivative as a limit of slopes. C91_instance: x*x at 3; C91_increment_instance: sin(x) at 0; C91_quotient_form_wrong, C91_symbolic_point_wrong"),
 "C92":("LimitOrder","`Question`, `LimitExpression.Is`, `LeqNear` (Spec/LimitOrder). C51 and Mathlib's order limits. C92_instance: x*sin(x) between -x*x and x*x at 0, cos(x), 1/x"),
 "C93":("LHopitalTrace","`Attempt`, `NoneBefore`, `Quotient`, `Returned` (Spec/LHopital). Induction on the number of attempts left; the recursion bound is removed with limit_stable (every limit has an outcome, C38). C93_answer, C93_err, C93_panic are all exact characterisations; C93_instance: sin(x)/x with order 1 and 0, x/exp(x)"),
 "C94":("Monotone","C30 at every place of the segment (`ValueBetween`, Spec/Residual), then Mathlib's mean value theorems. C94_mean_value, C94_growth, C94_bound, C94_extremum, C94_same_derivative, C94_integral; C94_instance: x*x and x*x + 5"),
 "C96":("Uncancelled","`Signs` fixes the signs of the variables. Sets of pairs (sign, power) as patterns: num_aggregate keeps the pattern of a sum or product unless signs clash, derivative lowers it (product rule = derivative of the product pattern), limit at 0 keeps the constant terms; L'Hopital loop by induction; values as Mathlib polynomials, signs of sums over the antidiagonal. C96_terms, C96_lowest_power, C96_answer, C96_true, C96_sign, C96_every_build, C96_covers_C70 (PosPoly is a special case), C96_condition_needed; C96_instance: ((-3)xx + yxxx)/(x*2x) and (x + (-1)xx)/(x*2x); C96_instance_signs: y + (-1)z with z negative"),
"C97":("Curvature","k-th result = k-th derivative by induction over exact floats (C30), then Rolle k times for the zeros, Taylor's theorem for polynomials, Mathlib's convexity criteria. C97_repeated, C97_few_zeros, C97_polynomial, C97_curvature, C97_tangent, C97_critical, C97_necessary; C97_instance: exp(x), sin(x), x*x + 5"),
"C98":("OneSided","Taylor's theorem with the returned residual (C78_lagrange), its sign times the sign of (s-p)^(n+1); the remainder one order higher for the first error term. C98_between, C98_side, C98_first_error; C98_instance: exp(x) at 0 for all n up to 20"),
"C99":("Zeros","Continuity from the smoothness of values; the mean value theorem of C94; Taylor's theorem of order 1 with the second derivative of C97. C99_exists, C99_unique, C99_distance, C99_newton; C99_instance: the zero of x*x - 2 between 1 and 2, Newton's step from 3/2 to 17/12"),
 "C95":("FirstTerm","The remainder of C35 is negligible against (s - p)^k; the sign of the quotient near the point. C95_leading, C95_extremum, C95_necessary; C95_instance: cos(x) at 0 to order 2"),
 "C86":("LimitVars","`Occurs` (Spec/Expr). Induction on the recursion of limit with an invariant on the variables of all expressions the search builds (C22, C28, C32); C33 for expansions. C86_instance"),
 "C79":("TaylorText","`polynomial` (Spec/TaylorText). C38 (the printed text), the display rules of + * ^ around numbers and quotients by numbers (every coefficient is one of these), C20 for x - a, C47 for reading back; C79_leading_minus shows the restriction is needed, C79_exp an instance"),
 "C70":("PosPoly","`PosPoly x i e` (Spec/PosPoly) is the syntactic form with its lowest power. num_aggregate keeps it, derivative lowers it by one (a value of ℕ∞, ⊤ for the literal 0), limit at 0 sees it; induction over the L'Hopital loop. Truth: t^i g(t) with g continuous for Infinitesimal and Infinity, the exact-float L'Hopital analysis of C50 for Normal. Release: the form number/variable/+/* is closed under derivative, and C68. Debug (Props/EveryBuild): the bounds of C67 are kept by derivative and substitution. Instance: (3xx + yxxx)/(x*2x)"),
}
json.dump({k:{"note":f"Props/{{{v[0]}}}. {v[1]}" if ',' in v[0] else f"Props/{v[0]}. {v[1]}"} for k,v in N.items()},open(root+'/tools/notes.json','w'),indent=1,ensure_ascii=False)
titles={}
for l in open(root+'/properties.jsonl'):
    d=json.loads(l); titles[d['id']]=d['title']
rows=['| | property | theorems in Props/ | how |','|---|---|---|---|']
for k in sorted(titles):
    f,n=N.get(k,('',''))
    rows.append(f'| {k} | {titles[k]} | {f} | {n} |')
p=root+'/DESIGN.md'
s=open(p).read()
a,b='<!-- table -->','<!-- end table -->'
if a in s:
    s=s[:s.index(a)+len(a)]+'\n'+'\n'.join(rows)+'\n'+s[s.index(b):]
    open(p,'w').write(s)
print(sorted(set(titles)-set(N)))
