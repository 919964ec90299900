# Formal model of symbolic-rust: design

Source: /repo (Rust, no dependencies, one binary crate). Lean project: /verif/lean, library `Verif`.

    Model/   the code, function by function; every definition cites file and lines in /repo
    Spec/    the specification: short, no proofs, does not use the model's helpers
    Proofs/  lemmas
    Props/   the property theorems, named Cnn_*, with examples that their hypotheses are met
    Replay   the repository's unit tests, run on the model

## 1. What is modelled, and how

| Rust | Lean |
|---|---|
| `i64`, `u64` | core `Int64`, `UInt64` (64-bit machine integers) |
| `+ - * abs neg` on them | functions taking a `Mode`: in range -> the value; otherwise `debug`: panic, `release`: two's-complement wrap |
| `x as i64` from `u64` | bit cast in `debug` and `release` (as in Rust, silently) |
| panic, `unwrap` on `None`, indexing out of range, `todo!()` | the outcome `panic` (a value, so "panics" and "never panics" are provable) |
| `Result` | `Out ε α = ok / err / panic` |
| `f64` | an arbitrary type `F` with operations `FloatOps F`; for the compiled program IEEE-754 doubles (Model/Float64; see 3) |
| `Vec<Expression>` children | `List`; `pop` takes the last element and panics on empty |
| recursion on trees | structural recursion on the nested inductive `Expr` |
| recursion of `limit` (not structural: L'Hôpital, rewritings) | a recursion bound; running out of it is a separate outcome `fuel` |
| `String`, `Display` | Lean `String`, functions into `String` |

Modules: `Prim` (outcomes, machine integers), `Rational` (rational.rs), `SmartNum` (val_holder.rs, special_const.rs,
smart_num/mod.rs), `Expr` (ast/, math_op/), `Aggregate`, `Substitute`, `Derivative`, `Taylor`, `Limit`
(compute/*), `Main` (main.rs), `Float64` (the f64 operations used).

**Mode.** Cargo.toml sets no profile options, so there are two builds: `debug` (overflow panics) and `release`
(overflow wraps). The third value, `strict`, is not a build: it is `debug` plus an abort on every `u64 as i64` cast that
changes the number, and expresses "nothing wrapped in this run". C07 shows that a `strict` result is also the `debug` and
the `release` result, so a soundness theorem about `strict` runs is about real runs without wrap-around. That the cast
can wrap silently in debug, with a wrong result, is C04_cast_wraps.

**Recursion bound of limit.** `limit m x pt k n e` is the run with recursion bound `n`. `LimitIs`, `LimitErr`,
`LimitPanics` say that some bound gives that outcome; `limit_outcome_unique` shows that the outcome does not depend on
the bound. `LimitDiverges`: every bound is exhausted. Theorems about answers therefore hold whatever the bound; that
some bound always suffices (`LimitDiverges` never holds) is a theorem of its own (C53; C45 with an explicit bound).

## 2. Specification

| file | content |
|---|---|
| Spec/Rational | valid triples, their value in ℚ, lowest terms |
| Spec/Number | the exact value of a number, numbers reachable through the API |
| Spec/Expr, Normal, Subst | trees built with the API, occurrence, size, depth, subterms, normal form, replacement |
| Spec/Laws | equal outcomes up to how the constants 0, 1 and e are stored |
| Spec/Semantics | the real value of an expression at an assignment (`denote`, partial), the C20 side conditions |
| Spec/Calculus, Exact | the function `t ↦ value at x := t`, derivative, exact values for every float implementation |
| Spec/Poly, Rename | expressions written as polynomials; renaming of variables |
| Spec/Enclose | rounding evaluations enclosed in sets; derivatives by the textbook rules without simplification |
| Spec/Height | bounds on the nominators and denominators an exact evaluation can form; differentiation rules without simplification |
| Spec/LimitForm | the expressions the limit rules cover; rational expressions |
| Spec/Series | formal power series with rational coefficients of an expression at a rational point |
| Spec/PosPoly, SinPoly | polynomials with positive coefficients and their lowest power of a variable; the same with sines |
| Spec/Partial, Eval | iterated partial derivatives; evaluation of arithmetic expressions over the rationals |
| Spec/Taylor, Display, LimitDisplay | iterated derivative, shown terms; regrouping, readable expressions; limit answers with equal text |
| Spec/Limit, LimitSem | outcomes of `limit`; what an answer says about a function (Mathlib filters) |
| Spec/LimitSearch | which limits a search asks for, and the C51 conditions |
| Spec/Rounding, LimitEnclose, Float64 | the rounding law of floats, error propagation through expressions and through the rules of limits; the real value of a double |
| Spec/Overflow | results modulo 2^64 |
| Spec/TaylorText | the polynomial a printed expansion shows |
| Spec/IntPoly | the polynomial (over ℤ or ℤ/2^64) that an expression writes |
| Spec/Expansion | expansions all of whose coefficients have exact values |
| Spec/SameLimit, LimitOrder | the number a finite limit answer names; comparing limits |
| Spec/Uncancelled | polynomials, the terms they have when multiplied out, no cancellation |
| Spec/LHopital | the attempts of L'Hôpital's rule at a quotient, their quotient table |
| Spec/Formula | formulas of + - * / built as expressions, and computed directly with the operators of numbers or of f64 |
| Spec/Residual | an expression with a value on a whole segment |
| Spec/Toy | a one-element float type, only for evaluating float-free examples |

`denote ν env e : Option ℝ` is undefined for division by 0, the logarithm of a number ≤ 0 and powers without a real
value. The meaning `ν` of numbers is a parameter with two instances: `exactReal` (integers and fractions are themselves,
`pi` is π, `e` is e, any other float has no exact value) and, for exact float arithmetic, `value?`.

## 3. Floats

Every theorem is for *every* type `F` with *arbitrary* operations `FloatOps F`; IEEE-754 doubles are one of them. No law
of f64 is assumed, except where a theorem states it as a hypothesis (C16, C18, C54, C55). Model/Float64 is the instance of
IEEE-754 doubles: Lean's own `Float.Model` (bit patterns, round to nearest even), the formatting `{:.3}` and `signum`. All
laws used as hypotheses are proved of it, and the theorems named `*_f64` have no hypothesis on floats. Two consequences:

* Statements about numbers other than floats hold unconditionally.
* Semantic statements (C20, C30, C34, C42, C50, C51) are stated for `exactReal`: floats other than PI and E have no
  value, and a result is compared through `StandsFor`: *if* it has an exact value, that value is right, and it has one if
  it contains no rounded float. They are proved for exact floats first (class `ExactFloat`: real arithmetic without
  rounding) and transferred: a run over `F` lifts to a run over `F × ℝ`, where the second component computes exactly
  (Proofs/Map, Proofs/Ghost: the whole model is natural in maps that commute with the float operations; `<` and printing
  of floats look at the first component only).

Rounded floats are treated in C54, C55, C63, C64, C65, C66 and C76: there the float type is any one satisfying the standard model of floating-point
arithmetic (Spec/Rounding: relative error u, absolute underflow error η, no overflow below `big`), and the theorems bound
the error. IEEE-754 doubles satisfy it with u = 2^-53, η = 2^-1075 and `big` the largest finite double (`F64.rounding`,
proved from the bit-level definition in Proofs/Float64, Float64Round, Float64Ops, Float64Laws). C63 and C64 extend
this to derivatives and Taylor coefficients, which run num_aggregate repeatedly, and C65 to limits at points where the
expression is defined; C66 to limits of quotients that take L'Hopital steps, and C76 to
sums, products and quotients of all of these and to Infinity answers. Left open: L'Hopital steps on operands that have no
value at the point (their rounding; C50 and C52 treat them exactly).

C87 and C88 are about the doubles bit by bit: correct rounding (nearest, ties to even, overflow to infinity) of conversions and
of float arithmetic, and the behaviour of infinities and NaN. C89 says that expressions add nothing to it: simplification
computes the same doubles as the operators of numbers, to the last bit.

## 4. Properties and proofs

<!-- table -->
| | property | theorems in Props/ | how |
|---|---|---|---|
| C01 | Rational equality is numeric equality | Rational | ℚ-value of a triple; cross-multiplication of reduced triples; gcd = Nat.gcd. eq_refl/symm/trans have no hypotheses at all. |
| C02 | Reduction is exact and canonical | Rational | Induction of Euclid's algorithm against Nat.gcd; holds for every bit pattern, also 0/0. |
| C03 | Rational constructor validation | Rational | Case analysis on the stored sign over all i64; the one panicking argument (abs of i64::MIN in debug) is characterised by an iff. new_positive and new_negative included. |
| C04 | Rational + and - are exact when nothing wraps | Rational | Mode `strict` = nothing wrapped. C04_cast_wraps is the counterexample without the cast condition (debug build, wrong sign, no panic). |
| C05 | Rational * and / and unary - are exact or panic | Rational | As C04, but for the debug build itself (no cast involved). |
| C06 | Small rationals never overflow | Rational | Bounds on all intermediate products, for all pairs below 2^31 and every Mode. |
| C07 | Debug and release builds agree | Number, Structure, LimitShape | Relation 'debug panics or both agree', shown monotone through bind, then induction over tree / order / recursion bound. |
| C08 | Release builds never panic outside limits and u64 display | Structure | Release primitives are total; induction over built trees. limit is excluded (C39) and is stated so. |
| C09 | Special-constant flags always tell the truth | Number | Invariant over the inductive set Reachable of numbers obtainable by any sequence of API operations, in any Mode. |
| C10 | Integer and rational numbers compute exactly | Number | Case analysis over representations, C04/C05 for rationals; C10_no_floats excludes the float fallback. |
| C11 | Neutral and absorbing elements | Number | For every float implementation and every x (also NaN): same record back, flag included. |
| C12 | Division by exact zero is a value, not a panic | Number, DivZero | All numbers; what becomes of n/0 afterwards. |
| C13 | Conversions into numbers are exact | Number, Float64 | All widths; the u64 case is exact iff < 2^63 and otherwise wraps, proved as an iff. C13_f32: widening never rounds, from the bit-level definitions (Proofs/Float32). |
| C14 | sign() is the mathematical sign | Number, Float64 | The property as first imagined fails for rational zeros; C14_sign_rational_zero states what happens there. C14_f64: doubles, with zeros, infinities and NaN. |
| C15 | Conversions agree with the value | Number | to_rational panic condition proved as an iff. |
| C16 | Closeness comparisons | Number, Structure, Float64 | For any float type with the needed laws as hypotheses (|a-b| = |b-a|, a-a = 0, 0 < eps), and for IEEE-754 doubles without hypotheses (C16_f64_*). |
| C17 | Number display | Number, Float64 | Text of every number; injective on integers. C17_f64: the text of a finite double is a decimal with three digits within 0.0005 of it. |
| C18 | Number addition and multiplication commute | Number, Float64 | Exact numbers: unconditional (both panic or same value). Other float types: commutativity as hypothesis. C18_f64: IEEE-754 doubles, no hypothesis. |
| C19 | Every API operation yields well-formed trees | Structure | Well-formedness is preserved by every operation, by induction; C19_meaning spells the predicate out node by node. |
| C20 | num_aggregate preserves the value | Semantics | Real-valued semantics (Spec/Semantics). C20_value: every float implementation, value compared where defined exactly (StandsFor). C20_value_exact_floats: exact float arithmetic, all floats. C20_value_of_rules: same with the syntactic side condition. |
| C21 | The four value-changing rewrites | Aggregate, Semantics | The negation of C20 at its excluded points, for all r and u, with the values shown to differ. |
| C22 | num_aggregate introduces no variables | Aggregate | Induction on the aggregation relation Agg, which is proved equivalent to num_aggregate. |
| C23 | num_aggregate never grows and converges | Aggregate | Induction; C23_converges counts passes. |
| C24 | Idempotence of num_aggregate | Aggregate | Fixed points characterised by an iff; explicit family needing more than n passes for every n. |
| C25 | Constant arithmetic folds to one number | Aggregate | Independent evaluator ConstValue into ℚ. |
| C26 | Aggregated expressions are in normal form | Aggregate | NormalAt at every subterm of every result. |
| C27 | Substitution means substitution | Structure, Semantics | Both directions of definedness. |
| C28 | Substitution laws | Structure | Sizes by exact count of occurrences. |
| C29 | Only variables can be substituted, differentiated or expanded by | Structure | Both overloads of all four entry points. |
| C30 | derivative computes the derivative | Semantics | Mathlib HasDerivAt. C30_derivative for every float implementation, C30_derivative_exact_floats for exact floats. |
| C31 | Derivative with respect to an absent variable is the literal zero | Structure | In every Mode. |
| C32 | derivative introduces no variables | Structure | Induction on the derivative relation Der, proved equivalent to derivative. |
| C33 | taylor_expansion shape | Taylor, TaylorTotal | Loop invariant; nthDerivative is an independent recursion. C33_succeeds: exactly when an expansion exists. |
| C34 | Taylor coefficients are correct | Semantics | iteratedDeriv of the denoted function. C34_restrictions_needed: the four wrong expansions. |
| C35 | Taylor remainder | Semantics | Mathlib's Taylor theorem on top of C34. |
| C36 | Factorial overflow bound | Taylor, TaylorTotal | Factorials against Nat.factorial; exp at 0 shows order 20 does succeed; C36_release_wrong: order 21 in release. |
| C37 | Lower-order expansions are prefixes | Taylor | Loop invariant. |
| C38 | Taylor display | Taylor, Display | Induction over the coefficient list; shownTerms is the independent specification of which coefficients are shown. |
| C39 | Unsupported limits always abort | LimitShape | Every Mode, operand, point, order, recursion bound. |
| C40 | limit never reports bounded fluctuation | LimitShape | Induction on the recursion bound. |
| C41 | Limit arithmetic is sound | LimitArith | For all functions along all filters. The two conditions are shown necessary by concrete functions. |
| C42 | Limits at points of definedness are correct | LimitSem | Induction on the recursion bound with continuity from C30's smoothness lemma. |
| C43 | sin at zero is always called infinitesimal | LimitShape, LimitSem | C43_sin_at_zero for all arguments; C43_wrong is the false answer. |
| C44 | More L'Hopital attempts never change an answer | LimitShape | Simulation between runs with different order_try. |
| C45 | Limits without division terminate | LimitShape | Explicit recursion bound (size), so termination is not assumed by the model. |
| C46 | Display never panics and is parenthesised by priority | Display, Structure | Priorities and parentheses for every operator and operand. |
| C47 | Which expressions display alike | Readback | Reference reader of tokens; regrouping as an independent inductive relation; iff. |
| C48 | Number predicates and extraction on expressions | Structure | All leaves and operators. |
| C49 | The shipped program runs | Main | main has no input: evaluated by the kernel for both builds and every FloatOps F; exp coefficients for every order up to 20. |
| C50 | L'Hopital steps are sound | LimitSem | Taylor expansions of dividend and divisor; the false answer at the excluded point is C50_zero_over_zero_wrong. |
| C51 | Every limit answer is true | LimitFull | Induction on the recursion bound over meromorphic germs (Mathlib Meromorphic.Order): every rewriting and any nesting of L'Hôpital steps. C51_*_condition_needed: the false answers where the condition fails. |
| C52 | Which indeterminate forms with infinity get an answer | LimitFull | From C51's invariant: poles stay poles under differentiation, so no step can resolve these forms. |
| C53 | limit terminates | LimitTerm | Every expression is described by a tree over abstract numbers on which num_aggregate and derivative are total functions (Proofs/EndTree; the tie is Proofs/EndLink). By induction on the nesting of sines, after finitely many derivatives a tree has derivative 0 or contains a negation, subtraction, power, exponential or logarithm outside sin and cos, on which limit panics (Proofs/EndFine). |
| C54 | num_aggregate computes with bounded rounding error | Rounding, Float64 | Forward error analysis by induction on Agg: every node's result, and its float, stay within the propagated bound (Proofs/RoundAgg); closed form for arithmetic by growth factors (1-9u)^-k (RoundArith). The rounding law is proved of IEEE-754 doubles (Proofs/Float64*, F64.rounding), so C54_f64 has no hypothesis on floats. |
| C55 | to_f64, is_close and near are right up to rounding | Rounding, Float64 | The five roundings of a fraction's to_f64 bounded together (conv_error), then the triangle inequality around eps. C55_f64_*: doubles, explicit constants; C55_margin_needed: 2^53 and 2^53+1 are judged within 0.5 by is_close but not by near. |
| C56 | Derivatives and expansions of polynomials | Poly | PolyIn (Spec/Poly) is preserved by derivative with the degree lowered; at degree 0 the derivative folds to the literal 0 (AggZero). C56_exact: the Taylor formula of a real polynomial (Mathlib) with C34. |
| C57 | The expansions of sin, cos and exp at 0 | TaylorTotal | nthDerivative in closed form by induction (period 4), then C33_succeeds; the 21 quotients by factorials are computed by the kernel for each k <= 20, which is the whole range the claim is about. |
| C58 | The names of variables do not matter | Rename | Commutation by induction on trees and on the recursion bound, as for the change of the float type (Proofs/Map). C58_injective_needed: the counterexample for non-injective renamings. |
| C59 | Repeated differentiation by several variables | Partial | Where a value and positive power bases exist the function is C-infinity in all variables jointly on an open set; the derivative is the partial derivative by C30, and Mathlib's symmetry of second derivatives gives the order independence for adjacent swaps, then for permutations. |
| C60 | Substitution and differentiation obey the chain rule | Partial | C30 for all four derivatives; the real chain rule for two variables from joint differentiability. SafeD.replace: the restrictions survive the substitution if NoLnIntoBase. |
| C61 | Substituting exact numbers evaluates an arithmetic expression | Eval | RatValue (Spec/Eval) is preserved by each substitution until no variable is left, then C25. |
| C62 | How large derivatives get | Growth | Induction on the derivation Der; each rule adds at most 4 copies of the operands and num_aggregate does not grow (C23). C62_quadratic: the nested sines. |
| C63 | Derivatives have bounded rounding error | Enclose | Encloses (Spec/Enclose) is rounding interval arithmetic with sets. num_aggregate and the differentiation rules are decomposed into elementary simplifications (Red, Proofs/EncloseRed: dropping 0 and 1, folding numbers, a common factor in the quotient and power rules, ...), each of which keeps enclosures and commutes with the textbook derivative; so the returned k-th derivative is reached from textbookN by simplifications only. The exact derivative: textbook_iterated. |
| C64 | Taylor coefficients have bounded rounding error | Enclose | As C63, then Cov.replace (substituting an enclosed point) and agg_cov for the two num_aggregate calls. C64_arithmetic: the error bound of C54_arithmetic read as an enclosure. |
| C65 | Limits have bounded rounding error | EncloseLimit | limit_meansC: the induction of limit_means (C42) with enclosures instead of values (every answer lies in the enclosure; a divisor whose enclosure omits 0 never triggers an L'Hopital step); limit_number for the arithmetic case; limit_exact (exact shadow run) for Infinitesimal. |
| C66 | L'Hopital limits have bounded rounding error | EncloseLHopital | The run is shadowed by an exact one in which every float carries the real number it stands for (R.lift, Proofs/GhostR; float-dependent branches agree by limit_map), so C50's analysis (lhopital_steps) applies: lower derivatives vanish exactly. limit_meansC on the i-th derivatives (nthDerivative_red, Vanish for sin and cos at 0) puts the answer in the enclosure. |
| C67 | No overflow while schoolbook fractions stay below 2^63 | Height | Number operations (Proofs/Height): each fits if the bounds of its result do, and the result is within them. Below (Proofs/HeightExpr) relates an expression to what num_aggregate can turn it into; it lowers the bounds, survives differentiation without simplification and substitution, and every num_aggregate of a Small expression is a Below step (Agg.belowHeight). Success is proved in the build `strict` and carried to the others by monotonicity (C07). C67_leaves: 2n and 2d are at most (2B)^s by induction. |
| C68 | Which limits succeed | LimitForm | `LimitForm` (Spec/LimitForm) describes the covered expressions. By induction over it: each rule's answer is finite and, if schoolbook fractions are small, `Below` the expression with the point put in (C67's relation), so num_aggregate of it cannot overflow; divisors have a nonzero value, so their answer is a Normal that is not the number 0 (C42's invariant over exact floats, or exact rational folding). Instances proved: (x*x+1)/(x+3) at 4, x*y+sin(x/y-1) at 1/2, x*x/(x+y) at 2. |
| C69 | Away from the literal 0, limits of rational expressions are evaluations | LimitEval | induction on the expression: with all answers Normal every rule is one num_aggregate step, and num_aggregate of an aggregated subterm without double negation is itself; the pole by computation and a Mathlib limit |
| C70 | Quotients of polynomials with positive coefficients at 0 | PosPoly | `PosPoly x i e` (Spec/PosPoly) is the syntactic form with its lowest power. num_aggregate keeps it, derivative lowers it by one (a value of ℕ∞, ⊤ for the literal 0), limit at 0 sees it; induction over the L'Hopital loop. Truth: t^i g(t) with g continuous for Infinitesimal and Infinity, the exact-float L'Hopital analysis of C50 for Normal. Release: the form number/variable/+/* is closed under derivative, and C68. Debug (Props/EveryBuild): the bounds of C67 are kept by derivative and substitution. Instance: (3xx + yxxx)/(x*2x) |
| C71 | Sines in quotients at 0: one L'Hopital step works, a second always aborts | SinPoly | `SinPoly x i e` (Spec/SinPoly) with order of vanishing. Derivatives raise a level: polynomial / sines / cosines; an expression of the last level has a derivative with a minus sign that num_aggregate cannot remove and limit meets (Minus). Truth as in C70, with sin u = u sinc u. C71_aborts holds in every build; C71_every_build (Props/EveryBuild) is the exact case distinction. Instances: sin(3x)/(2x), sin(x)sin(x)/(xx), (1-cos x)/x |
| C72 | The laws of simplification | Laws | equations between outcomes of num_aggregate (`SameResult`, Spec/Laws); cases on the simplified operand, which is a number or in normal form (C26). C72_div_one records that e/1 stays. Instance with the exception for --e |
| C73 | Expansions at rational points are the formal power series | Series,SeriesTrue | `HasSeries x p e f` (Spec/Series): Mathlib's power series over Q with +, *, inverse and substitution into sin, cos, exp; ln u is the l with exp(l) = u. The derivative of e has the series d/dX f (per rule, up to the simplifications, which keep the series), the value at p is the constant term, an exact rational; C33 then gives the coefficient. C73_true compares with C34; C73_geometric and C73_log are instances for every order. |
| C74 | The algebra of limits | LimitAlgebra | outcomes are `LimitIs`, `LimitErr`, `LimitPanics` (Spec/Limit), independent of the recursion depth; `LimitSimplified` is Normal of what num_aggregate makes of c. The recursion is unfolded once at a depth where both operands have their outcome; Infinitesimal + Infinity goes through the rewriting (a/b + 1)/(1/b); L'Hopital by monotonicity of the loop in order_try. Instances: x + 1/x and sin(x)/x in every build |
| C75 | Reading a limit answer | LimitDisplay | `SameText` (Spec/LimitDisplay). C40 rules out BoundedFluctuation, C19 makes the answer printable, C47 decides between finite answers and against the texts 0 and infinity. `Describes` (Spec/LimitSem) is the meaning. Both coincidences are shown to happen |
| C76 | Rounding errors through a whole limit search | LimitEnclose | `Tracks` (Spec/LimitEnclose) is the error propagation, by rule induction; leaves are C65 and C66 in their strong form (`MeansC`: the answer and all its evaluations are in S). `GoesOn` says that the L'Hopital search did not stop earlier. Sums, products and quotients combine by add_meansC, mul_meansC, div_meansC; the limits by Mathlib's filters. Instances in IEEE doubles |
| C77 | What overflow does to exact numbers | Overflow,OverflowMixed | `WrapsTo`, `Stores`, `IntSpec`, `WrittenAs` (Spec/Overflow). Unfolding of the machine operations: congruences modulo 2^64 compose (linear_combination), `abs() as u64` is right even for i64::MIN; overflow-checking builds return exactly if every step fits. Witnesses of wrong release results |
| C78 | The residual bounds the error of an expansion | Residual | `ValueBetween` (Spec/Residual). C33 (the residual is derivative n+1), iterated C30, C34 and Mathlib's Lagrange remainder; instances for sin and exp from C57 |
| C79 | Reading a printed expansion | TaylorText | `polynomial` (Spec/TaylorText). C38 (the printed text), the display rules of + * ^ around numbers and quotients by numbers (every coefficient is one of these), C20 for x - a, C47 for reading back; C79_leading_minus shows the restriction is needed, C79_exp an instance |
| C80 | Polynomials with integer coefficients are computed exactly, or modulo 2^64 | IntPoly | `Writes R e P` (Spec/IntPoly), P a Mathlib MvPolynomial over ℤ or ZMod (2^64); C77 for the integer operations, induction over the rules of num_aggregate and derivative (Mathlib's pderiv, bind₁) |
| C81 | The algebra of expansions | ExpansionAlgebra | `PointAt`, `Expandable`, `ExpandsTo` (Spec/Expansion). C34, and the rules for Taylor coefficients of analytic functions (Leibniz; the chain rule as a recurrence); C30 for the derivative. Two instances show that the hypotheses are met for every rule |
| C82 | Composition of expansions | ExpansionComp | `polynomialOf` (Spec/Expansion), Mathlib's Polynomial.comp. C34, C27; Taylor's formula for a composition of analytic functions as formal power series, by iterating dslope |
| C83 | Limits agree with expansions | LimitExpansion | C51 (answers of limit are true), C34 through C81's `Expandable.coefficient`, and the limit of a quotient of analytic functions from their first Taylor coefficients (dslope). C83_instance: sin(x) / x and cos(x) at 0 |
| C84 | Equal functions get equal limits | SameLimit | `LimitExpression.Names` (Spec/SameLimit). C51 for both runs and uniqueness of limits; for num_aggregate also C20. C84_instance: (sin(x) * 1) / x and its simplified form; C84_condition_needed |
| C85 | Equal functions get equal derivatives and expansions | SameExpansion | `PointAt`, `Expandable`, `ExpandsTo` (Spec/Expansion), Mathlib's =o. C30 and C34; an analytic function has no coefficients up to N iff it is o((t - p)^N). C85_instance: sin(x) and x at 0; C85_derivative_instance: sin(x) + sin(x) and 2 * sin(x) |
| C86 | Limits and expansions eliminate the variable | LimitVars | `Occurs` (Spec/Expr). Induction on the recursion of limit with an invariant on the variables of all expressions the search builds (C22, C28, C32); C33 for expansions. C86_instance |
| C87 | Conversions to f64 and float arithmetic are correctly rounded | Nearest | CorrectlyRounded (Spec/Float64) is stated with the values of all finite doubles; C87_determined: it fixes the value. Lean's rounding is shown to pick a nearest multiple of the last place, ties even (Proofs/Float64Round, Float64Ops), and no double off that grid is nearer; uniqueness since between two doubles with even mantissas lies another (Proofs/Float64Unique). C87_bound_needed, C87_instance |
| C88 | Infinities and NaN: IEEE-754, except that an exact 0 absorbs | Special | Case analysis of the code's short cuts (Special.add_cases etc.) over Lean's float model, whose pack/unpack round trip is proved (Proofs/Float64). C88_instance: largest double plus itself, inf - inf, exact 0 times inf, 1/-0.0 |
| C89 | Expressions compute exactly what the number operators compute | Formula | Formula, Formula.compute, float?, Tidy, Gives (Spec/Formula). Induction on the formula (C89_evaluation, C89_floats); C89_simplify_first: each rule of num_aggregate keeps the computed value, given -(-f) = f, which C89_f64 proves of the doubles (Proofs/Float64Bits: pack inverts unpack). C89_instance: (1*x+0)+(-(-y)) at 0.1, 0.2; C89_tidy_needed |
| C90 | Limits and substitution | LimitSubst | `LimitExpression.Names` (Spec/SameLimit). C51 for the three runs, C27 for the substitution, composition and uniqueness of limits. C90_instance: sin(x)/x with y + y for x; C90_translation_instance: x*x at 3 and (x+3)*(x+3) at 0 |
| C91 | The derivative is the limit of the difference quotient | DifferenceQuotient | C51 for the quotient, C27 for the two substitutions, C30 and C34 for the derivative and the coefficient; Mathlib's derivative as a limit of slopes. C91_instance: x*x at 3; C91_increment_instance: sin(x) at 0; C91_quotient_form_wrong, C91_symbolic_point_wrong |
| C92 | Limits and order | LimitOrder | `Question`, `LimitExpression.Is`, `LeqNear` (Spec/LimitOrder). C51 and Mathlib's order limits. C92_instance: x*sin(x) between -x*x and x*x at 0, cos(x), 1/x |
| C93 | order_try is the number of steps of L'Hopital's rule | LHopitalTrace | `Attempt`, `NoneBefore`, `Quotient`, `Returned` (Spec/LHopital). Induction on the number of attempts left; the recursion bound is removed with limit_stable (every limit has an outcome, C38). C93_answer, C93_err, C93_panic are all exact characterisations; C93_instance: sin(x)/x with order 1 and 0, x/exp(x) |
| C94 | What a derivative tells about its expression | Monotone | C30 at every place of the segment (`ValueBetween`, Spec/Residual), then Mathlib's mean value theorems. C94_mean_value, C94_growth, C94_bound, C94_extremum, C94_same_derivative, C94_integral; C94_instance: x*x and x*x + 5 |
| C95 | The first non-zero coefficient of an expansion decides | FirstTerm | The remainder of C35 is negligible against (s - p)^k; the sign of the quotient near the point. C95_leading, C95_extremum, C95_necessary; C95_instance: cos(x) at 0 to order 2 |
| C96 | Quotients of polynomials at 0: only cancellation can hurt | Uncancelled | `Signs` fixes the signs of the variables. Sets of pairs (sign, power) as patterns: num_aggregate keeps the pattern of a sum or product unless signs clash, derivative lowers it (product rule = derivative of the product pattern), limit at 0 keeps the constant terms; L'Hopital loop by induction; values as Mathlib polynomials, signs of sums over the antidiagonal. C96_terms, C96_lowest_power, C96_answer, C96_true, C96_sign, C96_every_build, C96_covers_C70 (PosPoly is a special case), C96_condition_needed; C96_instance: ((-3)xx + yxxx)/(x*2x) and (x + (-1)xx)/(x*2x); C96_instance_signs: y + (-1)z with z negative |
| C97 | What higher derivatives tell about an expression | Curvature | k-th result = k-th derivative by induction over exact floats (C30), then Rolle k times for the zeros, Taylor's theorem for polynomials, Mathlib's convexity criteria. C97_repeated, C97_few_zeros, C97_polynomial, C97_curvature, C97_tangent, C97_critical, C97_necessary; C97_instance: exp(x), sin(x), x*x + 5 |
| C98 | The residual tells on which side of an expansion the expression lies | OneSided | Taylor's theorem with the returned residual (C78_lagrange), its sign times the sign of (s-p)^(n+1); the remainder one order higher for the first error term. C98_between, C98_side, C98_first_error; C98_instance: exp(x) at 0 for all n up to 20 |
| C99 | Locating the zeros of an expression with its derivatives | Zeros | Continuity from the smoothness of values; the mean value theorem of C94; Taylor's theorem of order 1 with the second derivative of C97. C99_exists, C99_unique, C99_distance, C99_newton; C99_instance: the zero of x*x - 2 between 1 and 2, Newton's step from 3/2 to 17/12 |
<!-- end table -->

The status of each property is in MANIFEST.json. Where the code violates what one would expect, the property is stated
as the code behaves: the true part with its exact conditions, and the false part as a theorem with a witness (C04, C14,
C21, C24, C34, C41, C43, C47, C50, C51).

Concrete cases are evaluated by the kernel (`krfl`: closes an equality by `Eq.refl`, checked by the kernel only;
`decide` for machine integers). They occur as examples beside theorems, as counterexamples, and in C49, which has no
input.

## 5. Disagreements between the code and what a user would expect

Proved as theorems about the model, by witness or for all inputs:

* cos(pi) is simplified to 1; 0^r to 1, also for r ≠ 0; 1^r to r; ln(u)^r to u (C21). Hence wrong Taylor coefficients of
  x^2 at 0, at 1 and at ln 2, and of cos at pi (C34_restrictions_needed).
* rational + and - cast u64 products to i64: in a debug build this can silently give a wrong sign (C04_cast_wraps).
* in release builds overflow is silent: 2^32 * 2^32 is 0, 1/2^32 * 1/2^32 is 1/0, 1/3 + 1/2^63 is negative (C77_wraps).
* u64 values from 2^63 on become negative (C13_u64); division by zero gives n/0 (C12).
* one pass of num_aggregate need not be final, no fixed number of passes is (C24); a second pass can panic in debug
  although the first did not.
* expansions of order ≥ 21 always panic in debug (C36); in release order 21 succeeds with a wrong coefficient
  (C36_release_wrong). Derivatives of x^2 written with pow never simplify to 0, so its expansions keep clutter (C56_pow_excluded).
* limit: sin(anything) at the literal 0 is infinitesimal (C43); (x+1)/(x+1) at -1 is 0 (C50_zero_over_zero_wrong);
  1/(x+(-1)) at 1 is Normal(1/0) (C69_pole_missed);
  (1/x)*0 and (y+(-1)*y)/x at 0 are infinite (C51); Infinitesimal+Infinity is refused by `+` although Infinity+Infinitesimal
  is not (C41); the rewritings for Infinity*Infinitesimal and Infinity+Infinity can never succeed (C52); -, exp, ln and pow panic (C39),
  and so does every quotient with a sine that needs two L'Hopital steps, such as sin(x)*sin(x)/(x*x) at 0, and (1+(-1)*cos(x))/x (C71).
* the exact 0 times NaN or infinity, and the exact 0 divided by NaN or by the float 0.0, is the exact 0 (C88); the float 0.0 obeys
  IEEE-754. to_f64 of a fraction whose parts exceed 2^53 is not correctly rounded and not monotone (C87_bound_needed).
* -(-x) for x the fraction -1/1 is the integer -1, but simplifies to x (C89_tidy_needed).
* is_close judges 2^53 and 2^53+1 to be within 0.5 of each other; near does not (C55_margin_needed).
* a-(b-c) displays like (a-b)-c, and the literal -1 plus b like -(1+b) (C47);
  so an expansion whose first shown coefficient is negative reads like the negation of a whole polynomial (C79).

## 6. Trusted base

* The Lean 4.33.0 kernel. Axioms of every property theorem: at most `propext`, `Classical.choice`, `Quot.sound`
  (`#print axioms`). No axiom is added, no compiled evaluation is used.
* Lean's core library as the definition of IEEE-754 binary64 (`Float.Model`: plain definitions, evaluated by the kernel;
  one NaN). `{:.3}`, `signum` and the bits of PI and E are taken from Rust's documentation.
* Mathlib, as far as it defines the notions in statements: ℚ, ℝ, `Real.sin/cos/exp/log/rpow`, `HasDerivAt`,
  `iteratedDeriv`, filters and `Tendsto`, `=O`, `Nat.gcd`, `Nat.factorial`.
* The reading of the Rust source: each model definition cites file and lines and was compared with them line by line. The code
  was not run. Simplifications are stated at the definitions.

Modelled: all of src/smart_num, src/ast, src/math_op, src/compute and src/main.rs, except:

* stack overflow on deep trees, memory exhaustion, failures of `println!`;
* payloads of NaNs;
* `Debug` formatting, panic messages, `Clone`/ownership (values are immutable in the model).

The unit tests of the repository with literal data are replayed on the model in Verif/Replay.lean (tests of the reading of
the code, not proofs); those that loop over ranges of numbers are instances of the theorems about numbers.

## 7. Wrong programs

seeded/mutants.py holds realistic wrong programs as edits of the model, with the properties that each makes false.
tools/mutate.py applies one to a scratch copy of the model and everything that depends on it, lets Lean recover from
failing proofs, and reads off from the axioms which property theorems still have a proof. seeded/LOG.jsonl has one line
per attempt. A theorem that survives although its claim is false is tightened.
