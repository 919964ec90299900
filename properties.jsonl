{"id": "C01", "title": "Rational equality is numeric equality", "statement": "`==` on rationals is reflexive, symmetric and transitive for every triple (sign, nominator, denominator), and for rationals accepted by `RationalNum::new` it holds exactly when the two fractions are the same rational number.", "quantifier": "all pairs/triples of RationalNum values (all 2^192 bit patterns)", "why_tests_cant": "2^384 pairs; the tests compare seven pairs", "anchors": ["src/smart_num/rational.rs: PartialEq::eq", "src/smart_num/rational.rs: reduce"]}
{"id": "C02", "title": "Reduction is exact and canonical", "statement": "`reduce` never panics (even for 0/0), keeps the numeric value and the sign, produces lowest terms, is idempotent, and two valid nonzero rationals with the same value reduce to the same triple.", "quantifier": "all RationalNum values", "why_tests_cant": "every pair of u64 components; gcd recursion depth varies", "anchors": ["src/smart_num/rational.rs: reduce", "src/smart_num/rational.rs: gcd"]}
{"id": "C03", "title": "Rational constructor validation", "statement": "`RationalNum::new(s,n,d)` / `SmartNum::new_rational(s,n,d)` return Some exactly when s is 1 or -1 and d is not 0, the stored fields are the arguments, and the only panicking argument is s = i64::MIN (overflow-checking build).", "quantifier": "all i64 signs, all u64 nominators and denominators", "why_tests_cant": "2^192 argument triples, one panicking corner", "anchors": ["src/smart_num/rational.rs: new, new_positive, new_negative", "src/smart_num/mod.rs: new_rational"]}
{"id": "C04", "title": "Rational + and - are exact when nothing wraps", "statement": "Whenever no 64-bit operation overflows and no u64->i64 cast wraps, `a + b` and `a - b` on valid rationals equal the true rational sum/difference, in lowest terms. Without the cast condition the claim is false: an overflow-checking build can silently return a result of the wrong sign.", "quantifier": "all pairs of valid rationals", "why_tests_cant": "overflow depends on cross products of 64-bit components; tests use single digits", "anchors": ["src/smart_num/rational.rs: Add::add, Sub::sub"]}
{"id": "C05", "title": "Rational * and / and unary - are exact or panic", "statement": "In an overflow-checking build, if `a * b` (or `a / b` with b nonzero) returns at all then it equals the true product (quotient), in lowest terms; `-a` always returns the negation.", "quantifier": "all pairs of valid rationals", "why_tests_cant": "as C04", "anchors": ["src/smart_num/rational.rs: Mul::mul, Div::div, Neg::neg"]}
{"id": "C06", "title": "Small rationals never overflow", "statement": "If all nominators and denominators are below 2^31, all four operations return without panic or wrap in both debug and release builds, with the exact result.", "quantifier": "all pairs of valid rationals with components < 2^31", "why_tests_cant": "2^124 pairs", "anchors": ["src/smart_num/rational.rs: Add, Sub, Mul, Div"]}
{"id": "C07", "title": "Debug and release builds agree", "statement": "If number arithmetic, num_aggregate, derivative, taylor_expansion or limit returns (Ok or Err) in an overflow-checking build, the release build returns the identical result on the same input; and a run in which no operation overflows and no cast changes a number gives the same result in both builds.", "quantifier": "all inputs of each entry point", "why_tests_cant": "two builds must be compared on every input", "anchors": ["src/smart_num/val_holder.rs: Add, Sub, Mul, Div, Neg", "src/compute/num_aggregate/mod.rs: num_aggregate", "src/compute/derivative/mod.rs: derivative", "src/compute/taylor_expansion/partial_expansion.rs: taylor_expansion", "src/compute/limit/mod.rs: limit"]}
{"id": "C08", "title": "Release builds never panic outside limits and u64 display", "statement": "On every expression built with the public constructors and operators, num_aggregate, substitute, derivative, taylor_expansion and to_string return normally in a release build.", "quantifier": "all API-built expressions, all variables, points and orders", "why_tests_cant": "unbounded expression trees", "anchors": ["src/compute/num_aggregate/mod.rs: num_aggregate", "src/compute/derivative/mod.rs: derivative", "src/compute/taylor_expansion/partial_expansion.rs: taylor_expansion", "src/ast/tree.rs: to_string_raw", "src/compute/substitute/mod.rs: substitute"]}
{"id": "C09", "title": "Special-constant flags always tell the truth", "statement": "For every number obtainable through the public API by any sequence of conversions and arithmetic, is_zero holds iff the stored value is an exact zero, is_one iff it is an exact one, is_pi (is_e) only if it stores exactly the f64 constant PI (E), and never two at once; stored rationals keep sign in {-1,0,1} with sign 0 only when the nominator is 0.", "quantifier": "all finite sequences of API number operations, both builds", "why_tests_cant": "unbounded histories of operations", "anchors": ["src/smart_num/mod.rs: wrap_val, From, new_rational, Neg, Add, Sub, Mul, Div, is_zero, is_one, is_pi, is_e"]}
{"id": "C10", "title": "Integer and rational numbers compute exactly", "statement": "If neither operand is floating point and nothing wraps, +, -, *, / (nonzero divisor) and unary - on SmartNum give exactly the mathematical result, and never fall back to floating point.", "quantifier": "all pairs of non-float SmartNums", "why_tests_cant": "128+ bits of input per operation", "anchors": ["src/smart_num/mod.rs: Neg, Add, Sub, Mul, Div", "src/smart_num/val_holder.rs: Neg, Add, Sub, Mul, Div"]}
{"id": "C11", "title": "Neutral and absorbing elements", "statement": "0+x, x+0, x-0, 1*x and x*1 return x itself (same representation, same special-constant flag, also for floats such as NaN and infinity; of two zeros, or two ones, stored differently the right one is returned) and 0*x, x*0 and 0/x are the exact zero, for every x.", "quantifier": "all SmartNum values", "why_tests_cant": "includes all f64 values and all rationals", "anchors": ["src/smart_num/mod.rs: Add, Sub, Mul, Div", "src/smart_num/val_holder.rs: Mul, Div"]}
{"id": "C12", "title": "Division by exact zero is a value, not a panic", "statement": "Dividing a nonzero integer or fraction by the exact zero never panics (except i64::MIN in debug) and yields 1/0 or -1/0, with the sign of the dividend, which is neither is_zero nor is_one; 0/0 is 0; a finite double divided by the exact zero is inf, -inf or NaN. A fraction with denominator 0 never becomes a number with a value: neg, +, - with exact numbers, products with nonzero ones and quotients of it have denominator 0 again, in every build; only its product with the exact zero is 0, and an exact number divided by it is 0 or again has denominator 0 (0 in an overflow-checking build, if it is n/0 with n not 0).", "quantifier": "all numbers", "why_tests_cant": "2^192 dividends, and every operation after the division", "anchors": ["src/smart_num/val_holder.rs: Div", "src/smart_num/rational.rs: Add, Sub, Mul, Div, Neg, reduce"]}
{"id": "C13", "title": "Conversions into numbers are exact", "statement": "`SmartNum::from(i).to_i64()` is Some(i) for every i8..i64, u8..u32; for u64 it is exact iff v < 2^63, and otherwise becomes v - 2^64. An f64 is stored as it is, without a constant flag (also 0.0 and 1.0). A finite f32 is stored with exactly its value, and zeros, infinities and NaN stay what they are.", "quantifier": "all integers of each width, all f64 and f32", "why_tests_cant": "2^64 values", "anchors": ["src/smart_num/val_holder.rs: From<u8..u64,i8..i64,f32>, to_i64", "src/smart_num/mod.rs: From"]}
{"id": "C14", "title": "sign() is the mathematical sign", "statement": "For every API-reachable exact number with nonzero denominator and nonzero value sign() is the sign of its value; for an Integer also at zero (0). For a rational zero it returns the stored sign. For a finite non-zero double it is the sign of its value; for NaN 0, but 1 for 0.0 and -1 for -0.0.", "quantifier": "all SmartNums", "why_tests_cant": "2^192 values", "anchors": ["src/smart_num/mod.rs: sign"]}
{"id": "C15", "title": "Conversions agree with the value", "statement": "to_rational of a non-float number is a rational with the same value (Integer: denominator 1; debug panics only at i64::MIN); exactly one of is_int, is_rational and is_real holds of a stored value, and they tell which conversions answer; to_i64 is Some only for stored integers, so a quotient of integers answers to_i64 only if it is 0 or 1.", "quantifier": "all SmartNums", "why_tests_cant": "2^192 values", "anchors": ["src/smart_num/mod.rs: to_rational, to_i64", "src/smart_num/val_holder.rs: to_rational, to_i64, Div"]}
{"id": "C16", "title": "Closeness comparisons", "statement": "is_close is symmetric, and a number is close to itself for eps > 0 exactly if its float is finite (so always for integers, fractions, pi, e); near returns Err exactly when one side is not a number and is reflexive on exact numbers for every eps > 0 (in an overflow-checking build it returns true unless the subtraction overflows).", "quantifier": "all pairs of numbers/expressions, all eps", "why_tests_cant": "all pairs of numbers", "anchors": ["src/smart_num/mod.rs: is_close", "src/smart_num/val_holder.rs: is_close", "src/ast/tree.rs: near"]}
{"id": "C17", "title": "Number display", "statement": "Displaying a number never panics; integers print as their decimal numeral (so distinct integers print differently), rationals as sign, nominator, '/', denominator, exact 0/1/pi/e as their symbol, finite doubles as an optional minus sign, an integer, a point and three digits that denote a number within 0.0005 of the double (ties to even), the minus sign telling the sign of the double even if all digits are 0.", "quantifier": "all numbers", "why_tests_cant": "2^64 integers, 2^192 rationals", "anchors": ["src/smart_num/mod.rs: Display", "src/smart_num/val_holder.rs: Display", "src/smart_num/rational.rs: Display", "src/smart_num/special_const.rs: Display"]}
{"id": "C18", "title": "Number addition and multiplication commute", "statement": "For exact numbers x+y and y+x (x*y and y*x) either both panic or both return the same value; for floats (IEEE-754 doubles, also infinities and NaN) both return the same number.", "quantifier": "all pairs of numbers", "why_tests_cant": "all pairs", "anchors": ["src/smart_num/mod.rs: Add, Mul", "src/smart_num/val_holder.rs: Add, Mul", "src/smart_num/rational.rs: Add, Mul"]}
{"id": "C19", "title": "Every API operation yields well-formed trees", "statement": "Expressions built by constructors and overloaded operators, and results of num_aggregate, substitute, derivative, taylor_expansion (every coefficient and the residual) and finite limits are again well-formed (every operator node has its operator's arity, symbol and priority).", "quantifier": "all API-built expressions", "why_tests_cant": "unbounded trees", "anchors": ["src/math_op/*.rs", "src/compute/num_aggregate/rules/*.rs", "src/compute/derivative/rules/*.rs", "src/compute/substitute/mod.rs: substitute", "src/compute/limit/mod.rs: limit"]}
{"id": "C20", "title": "num_aggregate preserves the value", "statement": "If an expression has a value (no division by zero, no log of a non-positive number) at an assignment of its variables and num_aggregate returns without wrap-around, the result has the same value there. This holds for every expression whose cos arguments are not identically pi, and whose power bases are not identically 0 or 1 and contain no ln; f64 values other than PI and E are rounded quantities without an exact value: whenever the result contains none of them it has exactly the old value, and with an exact float arithmetic the same holds for all floats.", "quantifier": "all expressions, all variable assignments", "why_tests_cant": "unbounded trees and real assignments", "anchors": ["src/compute/num_aggregate/mod.rs: num_aggregate", "src/compute/num_aggregate/rules/*.rs"]}
{"id": "C21", "title": "The four value-changing rewrites", "statement": "num_aggregate does change the value of cos(pi), 0^r, 1^r and ln(u)^r: cos(pi) becomes 1, 0^r becomes 1 for every r, 1^r becomes r, ln(u)^r becomes the aggregate of u, for all u and r.", "quantifier": "all exponents r and arguments u", "why_tests_cant": "holds for every sub-expression r, u", "anchors": ["src/compute/num_aggregate/rules/cos.rs", "src/compute/num_aggregate/rules/pow.rs"]}
{"id": "C22", "title": "num_aggregate introduces no variables", "statement": "Every variable of num_aggregate(e) occurs in e.", "quantifier": "all expressions", "why_tests_cant": "unbounded trees", "anchors": ["src/compute/num_aggregate/mod.rs: num_aggregate"]}
{"id": "C23", "title": "num_aggregate never grows and converges", "statement": "A pass never increases the number of nodes or the depth; a pass that changes the expression strictly decreases the number of nodes, so repeated passes reach a fixed point within (number of nodes) passes.", "quantifier": "all expressions", "why_tests_cant": "unbounded trees and pass counts", "anchors": ["src/compute/num_aggregate/mod.rs: num_aggregate"]}
{"id": "C24", "title": "Idempotence of num_aggregate", "statement": "On expressions without subtraction one pass is final: num_aggregate(num_aggregate(e)) = num_aggregate(e). With subtraction it is not, and no fixed number of passes suffices for all expressions.", "quantifier": "all expressions; all pass counts", "why_tests_cant": "unbounded trees; unboundedly many passes", "anchors": ["src/compute/num_aggregate/rules/sub.rs", "src/compute/num_aggregate/rules/neg.rs"]}
{"id": "C25", "title": "Constant arithmetic folds to one number", "statement": "An expression built only from integer/rational numbers with -, +, -, *, / that does not wrap aggregates to a single number, and if it has a value (no zero divisor) that number is exactly the value.", "quantifier": "all variable-free arithmetic expressions", "why_tests_cant": "unbounded trees", "anchors": ["src/compute/num_aggregate/rules/{neg,add,sub,mul,div}.rs"]}
{"id": "C26", "title": "Aggregated expressions are in normal form", "statement": "In a result of num_aggregate no + or - node has an exact-zero operand, no * node has an exact 0 or 1 operand, no / node has an exact-zero dividend, and no +,-,*,/ or unary - node has only number operands.", "quantifier": "all expressions", "why_tests_cant": "unbounded trees", "anchors": ["src/compute/num_aggregate/rules/*.rs"]}
{"id": "C27", "title": "Substitution means substitution", "statement": "The value of e.substitute(x, v) at an assignment is the value of e at the assignment updated with x := value of v (and it is defined in the same cases when v has a value).", "quantifier": "all expressions e, v, all variables and assignments", "why_tests_cant": "unbounded trees", "anchors": ["src/compute/substitute/mod.rs: substitute"]}
{"id": "C28", "title": "Substitution laws", "statement": "Substituting a variable that does not occur changes nothing; substituting x for x changes nothing; the variables of the result are those of e without x plus those of v if x occurred; substitutions of different variables into closed expressions commute; sizes add up exactly.", "quantifier": "all expressions and variables", "why_tests_cant": "unbounded trees", "anchors": ["src/compute/substitute/mod.rs: substitute"]}
{"id": "C29", "title": "Only variables can be substituted, differentiated or expanded by", "statement": "substitute, derivative and taylor_expansion with an expression target return Err exactly when the target is not a variable (carrying the offending target where the error has a payload), and otherwise behave like the Variable overload, which never returns Err; limit panics on a non-variable target. The texts of the errors of derivative and taylor_expansion name the target as to_string shows it.", "quantifier": "all expressions as targets", "why_tests_cant": "unbounded trees", "anchors": ["src/compute/substitute/mod.rs: substitute", "src/compute/derivative/mod.rs: derivative", "src/compute/taylor_expansion/partial_expansion.rs: taylor_expansion", "src/compute/limit/mod.rs: limit"]}
{"id": "C30", "title": "derivative computes the derivative", "statement": "For every expression satisfying the C20 restrictions (for sin as well as cos) that has a value at a point where every power has a positive base (or a nonzero base and an exponent without x), if derivative(x) returns without wrap-around then its result has a value there (exactly, if no rounded float occurs in it), which is the derivative of the real function t -> value of e at x := t, and that function is defined in a neighbourhood.", "quantifier": "all expressions, variables and points", "why_tests_cant": "real analysis over unbounded trees", "anchors": ["src/compute/derivative/mod.rs: derivative", "src/compute/derivative/rules/*.rs"]}
{"id": "C31", "title": "Derivative with respect to an absent variable is the literal zero", "statement": "If x does not occur in e and derivative(x) returns, the result is exactly the number 0.", "quantifier": "all expressions and variables", "why_tests_cant": "unbounded trees", "anchors": ["src/compute/derivative/mod.rs: derivative"]}
{"id": "C32", "title": "derivative introduces no variables", "statement": "Every variable of the derivative occurs in the expression.", "quantifier": "all expressions", "why_tests_cant": "unbounded trees", "anchors": ["src/compute/derivative/mod.rs: derivative"]}
{"id": "C33", "title": "taylor_expansion shape", "statement": "A successful expansion of order n has exactly n+1 coefficients, echoes order, variable and point, its residual is the (n+1)-fold derivative, and coefficient k is the aggregate of (aggregate of the k-fold derivative with x replaced by the point) / k!. An expansion of order n (at most 20 if overflow is checked) succeeds exactly if these pieces can be computed.", "quantifier": "all expressions, points, orders", "why_tests_cant": "unbounded orders", "anchors": ["src/compute/taylor_expansion/partial_expansion.rs: taylor_expansion"]}
{"id": "C34", "title": "Taylor coefficients are correct", "statement": "Under the C30 restrictions evaluated at the expansion point (no power base identically 0 or 1 there, no sin/cos argument identically pi there, no ln substituted into a power base), coefficient k of a successful wrap-free expansion has the value f^(k)(a)/k!, where f is the real function denoted by the expression and a the value of the point. Without the restrictions it is false: x^2 at 0 and at 1, x^2 at ln(2) and cos at pi get wrong constant coefficients.", "quantifier": "all expressions, points, orders, k", "why_tests_cant": "real analysis over unbounded trees and orders", "anchors": ["src/compute/taylor_expansion/partial_expansion.rs: taylor_expansion"]}
{"id": "C35", "title": "Taylor remainder", "statement": "Under the C34 conditions the function minus the polynomial with the returned coefficients is O((x-a)^(n+1)) as x -> a, which is what the displayed O(...) term claims.", "quantifier": "all expressions, points, orders", "why_tests_cant": "asymptotic statement over real numbers", "anchors": ["src/compute/taylor_expansion/partial_expansion.rs: taylor_expansion, Display"]}
{"id": "C36", "title": "Factorial overflow bound", "statement": "In an overflow-checking build no expansion of order 21 or more ever succeeds, for any expression; up to order 20 the factorials are exact. A release build accepts order 21 and gets a wrong coefficient: the last one of exp at 0 comes out negative.", "quantifier": "all expressions, all orders", "why_tests_cant": "all 2^64 orders, all expressions", "anchors": ["src/compute/taylor_expansion/partial_expansion.rs: taylor_expansion"]}
{"id": "C37", "title": "Lower-order expansions are prefixes", "statement": "If an expansion of order m succeeds then every order n <= m succeeds and its coefficients are the first n+1 coefficients.", "quantifier": "all expressions, points, n <= m", "why_tests_cant": "unbounded orders", "anchors": ["src/compute/taylor_expansion/partial_expansion.rs: taylor_expansion"]}
{"id": "C38", "title": "Taylor display", "statement": "Display of an expansion lists exactly the coefficients that are not the exact zero in increasing order, each with its power, followed by the O-term of order+1; it panics only by overflow.", "quantifier": "all expansions", "why_tests_cant": "unbounded coefficient lists", "anchors": ["src/compute/taylor_expansion/partial_expansion.rs: Display"]}
{"id": "C39", "title": "Unsupported limits always abort", "statement": "Taking the limit of any expression whose root is unary minus, subtraction, exp, ln or pow panics, whatever the operands, variable, point and order.", "quantifier": "all operands, points, orders", "why_tests_cant": "unbounded trees", "anchors": ["src/compute/limit/rules/neg.rs", "src/compute/limit/rules/sub.rs", "src/compute/limit/mod.rs: limit"]}
{"id": "C40", "title": "limit never reports bounded fluctuation", "statement": "A successful limit is never BoundedFluctuation, for any expression, variable, point and order.", "quantifier": "all expressions, points, orders", "why_tests_cant": "unbounded trees and recursion", "anchors": ["src/compute/limit/mod.rs: limit", "src/compute/limit/limit_expression.rs"]}
{"id": "C41", "title": "Limit arithmetic is sound", "statement": "Read Infinitesimal as 'tends to 0', Infinity as '|.| tends to infinity', BoundedFluctuation as 'is eventually bounded' and Normal(c) as 'tends to the value of c'. Every Ok answer of unary -, + and - on limit classes is correct for every pair of real functions along every filter. Every Ok answer of * is correct if a Normal operand next to Infinity has a nonzero value, and of / if the divisor is eventually nonzero and no Normal operand has the value 0; both conditions are needed (Infinity*Normal(0), and Normal(c)/Infinitesimal with c of value 0 but not the literal 0, get wrong answers). The operand pairs answered with Err are listed exactly; Infinitesimal+Infinity is an Err although its sum is determined (and Infinity+Infinitesimal is answered).", "quantifier": "all functions, all filters, all limit classes", "why_tests_cant": "second-order quantification", "anchors": ["src/compute/limit/limit_expression.rs: Add, Sub, Mul, Div, Neg"]}
{"id": "C42", "title": "Limits at points of definedness are correct", "statement": "For every API-built expression (with the C30 restrictions, rewritten expressions as in C34) that has a value at x := p, p the value of the point, a successful wrap-free limit there is the true limit: the answer is Infinitesimal and the function tends to 0, or Normal(z) with z of the function's value, which is what it tends to. Infinity and BoundedFluctuation never occur. Where the point is the literal 0 the arguments of sin must be of value 0 (C43).", "quantifier": "all such expressions, points, orders", "why_tests_cant": "real analysis over unbounded trees", "anchors": ["src/compute/limit/mod.rs: limit", "src/compute/limit/rules/{add,sub,mul,div,pow,sin,cos}.rs"]}
{"id": "C43", "title": "sin at zero is always called infinitesimal", "statement": "As the variable tends to the literal 0, limit answers Infinitesimal for sin of every argument, also when the true limit is nonzero: sin(x+1) at 0 tends to sin 1, which is not 0.", "quantifier": "all arguments, variables, orders, builds", "why_tests_cant": "all arguments", "anchors": ["src/compute/limit/rules/sin.rs"]}
{"id": "C44", "title": "More L'Hopital attempts never change an answer", "statement": "If limit succeeds with order_try = n then for every larger order_try it succeeds with the same answer.", "quantifier": "all expressions, points, n <= m", "why_tests_cant": "unbounded recursion", "anchors": ["src/compute/limit/rules/div.rs", "src/compute/limit/mod.rs: limit"]}
{"id": "C45", "title": "Limits without division terminate", "statement": "For division-free expressions limit always terminates (with an answer or a panic), with recursion depth bounded by the size of the expression.", "quantifier": "all division-free expressions", "why_tests_cant": "unbounded trees; non-termination is unobservable by tests", "anchors": ["src/compute/limit/mod.rs: limit"]}
{"id": "C46", "title": "Display never panics and is parenthesised by priority", "statement": "to_string of an API-built expression never panics; an operand is parenthesised exactly when its root operator's priority is lower than its parent's.", "quantifier": "all API-built expressions", "why_tests_cant": "unbounded trees", "anchors": ["src/ast/tree.rs: to_string_raw, Display"]}
{"id": "C47", "title": "Which expressions display alike", "statement": "Call an expression readable if its variable names contain no space or parenthesis, do not begin with a digit, '-', sin, cos, exp or ln and are not pi or e, and its numbers are integers >= 0, pi, e or positive fractions. Two readable expressions display alike exactly if they differ only in the grouping of equally tightly binding operators (a o (b o' c) against (a o b) o' c for o, o' both in {+,-}, both *, or both in {/,^}). So the text determines the expression if no right operand binds as tightly as its operator, and it determines the value if this holds for the right operands of -, / and ^. Without it, it does not: a-(b-c) and (a-b)-c display alike; and the literal -1 plus b displays like -(1+b).", "quantifier": "all pairs of expressions", "why_tests_cant": "unbounded pairs of trees", "anchors": ["src/ast/tree.rs: to_string_raw, Display", "src/math_op/*.rs", "src/smart_num/mod.rs: Display"]}
{"id": "C48", "title": "Number predicates and extraction on expressions", "statement": "to_smart_num and to_rational succeed exactly on number leaves (floats excluded for to_rational) and return the stored number; is_zero/is_one/is_pi/is_e/is_num/is_operator/is_operand agree with the stored leaf; extraction inverts construction; the error of a failed extraction has a source exactly if the expression is a variable.", "quantifier": "all expressions", "why_tests_cant": "unbounded trees", "anchors": ["src/ast/tree.rs: to_smart_num, to_rational, is_*", "src/ast/op/operand.rs"]}
{"id": "C49", "title": "The shipped program runs", "statement": "main never panics in either build and prints the two expansions of exp at 0 and ln at 1 of order 5 with exactly the mathematically correct coefficients; the expansion of exp at 0 succeeds with exactly the coefficients 1/k! for every order up to 20.", "quantifier": "the one execution of main in each build, for every f64 implementation", "why_tests_cant": "no test executes main", "anchors": ["src/main.rs: main"]}
{"id": "C50", "title": "L'Hopital steps are sound", "statement": "A successful limit of a quotient of two expressions defined at the point stops after some i <= order_try steps; all derivatives of dividend and divisor of order below i vanish at the point, and if the i-th derivative of the divisor does not vanish the answer is the true limit of the quotient. The answer (also Infinity) is the true limit as well whenever no derivative whose limit is called Normal has the value 0 there and the divisor is not 0 near the point. Without that condition it is false: (x+1)/(x+1) at -1 is answered Normal(0).", "quantifier": "all such expressions, points, orders", "why_tests_cant": "real analysis over unbounded trees", "anchors": ["src/compute/limit/rules/div.rs"]}
{"id": "C51", "title": "Every limit answer is true", "statement": "For every API-built expression and point, the point of value p, the expression with a value near p but not necessarily at p (with the C30, C34 and C43 restrictions), every successful wrap-free limit is true: Infinitesimal means the function tends to 0 as x -> p, Infinity that its absolute value tends to infinity, Normal(c) that it tends to the value of c, and BoundedFluctuation does not occur. This covers all rewritings of sums and products and any number of L'Hopital steps, nested in any way. The one condition is that no step multiplies Infinity by, or divides by (or divides by Infinitesimal), a Normal answer of value 0; it is needed: (1/x)*0 and (y+(-1)*y)/x at 0 are answered Infinity.", "quantifier": "all such expressions, points, orders", "why_tests_cant": "real analysis over unbounded trees and unbounded rewriting", "anchors": ["src/compute/limit/mod.rs: limit", "src/compute/limit/rules/{add,mul,div}.rs", "src/compute/limit/limit_expression.rs"]}
{"id": "C52", "title": "Which indeterminate forms with infinity get an answer", "statement": "Under the C51 conditions, whatever order_try is: the limit of l/r where both limits are Infinity, of l+r where both are Infinity, and of l*r where one is Infinity and the other Infinitesimal never succeeds. (So the rewritings the code performs for these products and the L'Hopital steps for this quotient are fruitless.) But l+r with limits Infinitesimal and Infinity, which + on limits refuses, always succeeds with Infinity through the rewriting, for all expressions in every build.", "quantifier": "all such pairs of expressions, points, orders", "why_tests_cant": "the failure must occur for every expression and every order_try", "anchors": ["src/compute/limit/rules/{add,mul,div}.rs"]}
{"id": "C53", "title": "limit terminates", "statement": "limit(x, pt, order_try) returns an answer, returns Err or panics - it never recurses or rewrites forever: for every API-built expression and point, every variable and every order_try, with and without overflow checks.", "quantifier": "all expressions (any size and nesting), all points, variables and orders, both builds", "why_tests_cant": "the rewritings in sums and products, and the repeated differentiation in quotients, make the expression larger at every step, so termination is a statement about unbounded runs", "anchors": ["src/compute/limit/rules/{add,mul,div}.rs", "src/compute/limit/mod.rs"]}
{"id": "C54", "title": "num_aggregate computes with bounded rounding error", "statement": "For float arithmetic that rounds with relative error at most u (plus an absolute underflow error), standard forward error propagation through the expression bounds the error of num_aggregate: if an evaluation that rounds at every number and operator stays defined, does not overflow and is within E of the exact value, then the result of num_aggregate has a value within E of the exact value, and so has its to_f64 if it is a number. In particular an arithmetic expression of k numbers and operations (those of a divisor counted twice) folds to a number whose float is within 14*u*k*A of the exact value, A being the value without cancellation. IEEE-754 doubles are such an arithmetic, with u = 2^-53.", "quantifier": "all expressions (with the C21 rewrites excluded), all assignments, every float implementation with the stated rounding law, any u", "why_tests_cant": "errors accumulate over unboundedly many operations and depend on the float implementation", "anchors": ["src/compute/num_aggregate/mod.rs: num_aggregate", "src/smart_num/val_holder.rs: Add, Sub, Mul, Div, Neg, to_f64", "src/smart_num/mod.rs: Add, Sub, Mul, Div, Neg", "src/smart_num/rational.rs: to_f64"]}
{"id": "C55", "title": "to_f64, is_close and near are right up to rounding", "statement": "With rounding as in C54: to_f64 of every number of value v is within 8*u*|v| plus the underflow error of v; is_close and near answer true if the exact difference is below eps by more than an explicit rounding margin, and false if it is above eps by more than that margin. For doubles the margin is 2^-48 (|a|+|b|) + 2^-1071, and some margin is needed: is_close judges 2^53 and 2^53+1 to be within 0.5.", "quantifier": "all pairs of numbers (integers, fractions, constants, finite floats), all eps, every float implementation with the stated rounding law", "why_tests_cant": "all pairs of 64-bit numbers and floats", "anchors": ["src/smart_num/mod.rs: to_f64, is_close", "src/smart_num/val_holder.rs: to_f64, is_close", "src/smart_num/rational.rs: to_f64", "src/ast/tree.rs: near"]}
{"id": "C56", "title": "Derivatives and expansions of polynomials", "statement": "For an expression written as a polynomial of degree <= n in x (from x and expressions without x by -, +, * and division by expressions without x), in every build: every derivative of order above n is the literal 0, each derivative is again written as a polynomial of the lowered degree, every Taylor coefficient beyond n is the literal 0 and the residual of an order >= n is the literal 0; and the expansion of order >= n around any point (under the C34 conditions) equals the function at every real, not only near the point. Powers written with pow are excluded, and must be: no derivative of x^c of any order, for a number c other than 0, is a number, in any build.", "quantifier": "all such expressions, degrees, orders, points", "why_tests_cant": "unbounded degrees and trees; equality of functions on all of R", "anchors": ["src/compute/derivative/mod.rs: derivative", "src/compute/derivative/rules/{add,sub,mul,div,neg}.rs", "src/compute/taylor_expansion/partial_expansion.rs: taylor_expansion"]}
{"id": "C57", "title": "The expansions of sin, cos and exp at 0", "statement": "For every variable x and every order n <= 20, in every build, the expansions of sin(x), cos(x) and exp(x) at 0 succeed and coefficient k has exactly the value of the k-th derivative at 0 over k!. The derivatives of sin(x) of every order are exactly sin(x), cos(x), -sin(x), -cos(x) in turn, without clutter, and those of exp(x) are exp(x).", "quantifier": "all variables, orders <= 20 for the expansions and all orders for the derivatives, both builds", "why_tests_cant": "unbounded orders; real analysis", "anchors": ["src/compute/taylor_expansion/partial_expansion.rs: taylor_expansion", "src/compute/derivative/rules/{sin,cos,exp,neg,mul}.rs"]}
{"id": "C58", "title": "The names of variables do not matter", "statement": "num_aggregate, substitute, derivative (also repeated), taylor_expansion and limit commute with every renaming of variables that keeps different variables different: on renamed input they return the renamed result, with the same panics and errors. For num_aggregate this holds also for renamings that identify variables; for derivative it does not.", "quantifier": "all expressions, points, injective renamings, orders, both builds", "why_tests_cant": "infinitely many names and unbounded trees", "anchors": ["src/compute/num_aggregate/mod.rs: num_aggregate", "src/compute/substitute/mod.rs: substitute", "src/compute/derivative/mod.rs: derivative", "src/compute/taylor_expansion/partial_expansion.rs: taylor_expansion", "src/compute/limit/mod.rs: limit"]}
{"id": "C59", "title": "Repeated differentiation by several variables", "statement": "Differentiating by a list of variables in turn gives (without wrap-around, under the C30 restrictions, for a point where the expression has a value) an expression whose value is the iterated partial derivative of the function of the expression; any two orders of the same variables (any permutation, with repetitions) give the same value, although the results differ as expressions.", "quantifier": "all expressions, lists of variables and their permutations, assignments", "why_tests_cant": "real analysis over unbounded trees and lists", "anchors": ["src/compute/derivative/mod.rs: derivative"]}
{"id": "C60", "title": "Substitution and differentiation obey the chain rule", "statement": "If v is substituted for y in e and the result is differentiated by x, its value is that of de/dx + de/dy * dv/dx as returned by derivative, with y at the value of v; if x and y are the same variable it is that of de/dx * dv/dx. Under the C30 restrictions, and v must bring no ln into a power base.", "quantifier": "all expressions e and v, variables x and y, assignments", "why_tests_cant": "relates three operations on unbounded trees", "anchors": ["src/compute/derivative/mod.rs: derivative", "src/compute/substitute/mod.rs: substitute"]}
{"id": "C61", "title": "Substituting exact numbers evaluates an arithmetic expression", "statement": "Substituting numbers with an exact value (in any order, more than the needed ones, the first for a variable counting) for the variables of an expression written with exact numbers, variables, unary -, +, -, * and / and then num_aggregate gives a single number that is not a float; where no operation wraps around its value is exactly the rational value of the expression.", "quantifier": "all such expressions, assignments of numbers, both builds", "why_tests_cant": "unbounded trees over all 64-bit numbers", "anchors": ["src/compute/substitute/mod.rs: substitute", "src/compute/num_aggregate/mod.rs: num_aggregate"]}
{"id": "C62", "title": "How large derivatives get", "statement": "In every build the derivative of an expression of n nodes and depth h has at most 4nh nodes and depth at most 4h; the k-fold derivative has depth at most 4^k h and at most n (4h)^k 2^(k(k-1)) nodes. Coefficient k of an expansion at a point with s nodes has at most s times that many nodes plus 2, and depth at most 4^k h plus that of the point. The bound for derivatives is of the right order: the derivative of n+1 nested sines has (n^2+7n+4)/2 nodes.", "quantifier": "all expressions, variables, k, both builds", "why_tests_cant": "unbounded trees and orders", "anchors": ["src/compute/derivative/mod.rs: derivative", "src/compute/derivative/rules/*.rs"]}
{"id": "C63", "title": "Derivatives have bounded rounding error", "statement": "With rounding as in C54: evaluate the k-th derivative of an expression by the textbook rules, without any simplification and rounding at every number and operator. Whatever set encloses all such evaluations (with the variables anywhere in given ranges) also contains the value of the k-th derivative that derivative returns, its to_f64 if it is a number, and the exact k-th derivative. In particular every error bound that standard error propagation gives for the textbook derivative bounds the error of the returned one. Conditions: error propagation shows that sin and cos arguments are not pi and power bases not 0 or 1 (at some assignment), and power bases contain no ln.", "quantifier": "all expressions, orders k, assignments, every float implementation with the stated rounding law", "why_tests_cant": "errors accumulate over unboundedly many operations; repeated simplification reorders and drops operations", "anchors": ["src/compute/derivative/mod.rs: derivative", "src/compute/derivative/rules/*.rs", "src/compute/num_aggregate/mod.rs: num_aggregate"]}
{"id": "C64", "title": "Taylor coefficients have bounded rounding error", "statement": "With rounding as in C54: whatever set encloses all evaluations, rounding at every step, of the k-th derivative by the textbook rules at the point, divided by k!, also contains the value of coefficient k of a successful expansion, its to_f64 if it is a number, and the exact coefficient f^(k)(p)/k!. In particular, for an expression written with numbers, x, -, +, * and / and a number as point, the coefficients are numbers whose floats are within 14*u*K*A of f^(k)(p)/k!, where K counts the operations of that evaluation (those of a divisor twice) and A is its value without cancellation. Conditions as in C63, at the point.", "quantifier": "all expressions, points, orders, k, every float implementation with the stated rounding law", "why_tests_cant": "errors accumulate over unboundedly many operations and derivatives", "anchors": ["src/compute/taylor_expansion/partial_expansion.rs: taylor_expansion", "src/compute/derivative/mod.rs: derivative", "src/compute/substitute/mod.rs: substitute", "src/compute/num_aggregate/mod.rs: num_aggregate"]}
{"id": "C65", "title": "Limits have bounded rounding error", "statement": "With rounding as in C54: for a successful limit at a point where every evaluation of the expression, rounding at every step, is defined (so no divisor can round to 0), whatever set encloses all these evaluations (with the variable ranging over an enclosure of the point) also contains the answer: Infinitesimal is returned only if the exact value at the point is 0, Infinity and BoundedFluctuation never, the value of a Normal answer is in the set, and so is its to_f64 if it is a number. The exact value of the expression at the point is in the set too, and it is the true limit. In particular, for an expression written with numbers, x, -, +, * and / and a number as point, a Normal answer is a number (in every build mode, L'Hopital steps included), its float is within 14*u*K*A of the true limit (and Infinitesimal is returned only if the true limit is exactly 0), with K and A as in C54. Conditions as in C64; at the literal point 0, every sin must have an argument whose sine is exactly 0 there (C43).", "quantifier": "every expression, point, order, float type with a rounding-error bound (IEEE doubles included), ranges for the other variables and successful limit", "why_tests_cant": "The error depends on which float operations num_aggregate performs in which limit rule, and on the accuracy of the float type; tests compare a few limits to a tolerance.", "anchors": ["src/compute/limit/*.rs", "src/compute/limit/rules/*.rs", "src/compute/num_aggregate/rules/*.rs", "src/smart_num/*.rs"]}
{"id": "C66", "title": "L'Hopital limits have bounded rounding error", "statement": "With rounding as in C54: a successful limit of a quotient stops after the number i <= order_try of L'Hopital steps at which the reported limits of the i-th derivatives of dividend and divisor can be divided. In exact arithmetic all lower derivatives of dividend and divisor are 0 at the point. Whatever set encloses all evaluations, rounding at every step, of the quotient of the i-th derivatives by the textbook rules (with the variable ranging over an enclosure of the point) contains the true limit of the quotient, which exists and is the quotient of the i-th derivatives, and the answer: it is Infinitesimal only if the true limit is exactly 0, never Infinity or BoundedFluctuation, and a Normal answer (and its to_f64 if it is a number) is in the set. In particular, for dividend and divisor written with numbers, x, -, +, * and / and a number as point, the float of the answer is within 14*u*K*A of the true limit. Conditions: dividend and divisor have a value at the point and satisfy the conditions of C64 and C34; at the literal point 0, every argument of sin and cos must visibly vanish with x (built so that it is a zero literal, x, or a negation, sine, sum, difference, product or quotient inheriting this).", "quantifier": "every dividend, divisor, point, order, float type with a rounding-error bound (IEEE doubles included), ranges for the other variables and successful limit", "why_tests_cant": "Whether rounded derivatives are recognised as 0 decides how many steps are taken; that rounding never makes a nonzero derivative vanish or the reverse is a claim about all expressions and float types.", "anchors": ["src/compute/limit/*.rs", "src/compute/limit/rules/*.rs", "src/compute/derivative/rules/*.rs", "src/compute/num_aggregate/rules/*.rs", "src/smart_num/*.rs"]}
{"id": "C67", "title": "No overflow while schoolbook fractions stay below 2^63", "statement": "Give every number the bounds |nominator|, denominator (at least 1 each; 1, 1 for floats and variables) and every operation the bounds of schoolbook fraction arithmetic (n1*d2 + n2*d1 over d1*d2 for + and -, n1*n2 over d1*d2 for *, n1*d2 over d1*n2 for /; the maximum for powers; 1, 1 for sin and cos). If these bounds are below 2^63 at every subexpression, num_aggregate succeeds any number of times, without overflow or wrapping, with the same result in every build. If they are below 2^63 for the derivatives up to order k by the textbook rules without simplification, the first k derivatives succeed likewise; if also for the derivatives at the point divided by j!, the Taylor expansion of order up to 20 succeeds likewise. In particular, giving numbers to all variables of an arithmetic expression with s leaves and simplifying gives exactly its rational value in every build whenever all integers, nominators and denominators are at most B >= 1 and (2B)^s < 2^64. The bound is sharp: 2^62 + 2^62 panics in overflow-checking builds.", "quantifier": "every expression, variable, point, order, assignment of numbers and build", "why_tests_cant": "Which intermediate fractions are formed depends on the shape of the expression and on which simplifications fire; tests try a few magnitudes, and a panic or a wrapped intermediate needs one particular combination.", "anchors": ["src/smart_num/*.rs", "src/compute/num_aggregate/rules/*.rs", "src/compute/derivative/rules/*.rs", "src/compute/taylor_expansion/*.rs"]}
{"id": "C68", "title": "Which limits succeed", "statement": "Whatever the build, point and order, a limit has an answer only for expressions made, outside the arguments of sin and cos, of numbers, variables, sums, products and quotients. In release builds it has a finite answer for every such expression without quotients outside sin and cos, at every point and for every order; for expressions without any division this is exact, and every other limit panics. In every build it has one if schoolbook fractions (C67) stay below 2^63 once the point is put in. With quotients it has one, in every build and the same for every order, at every point where the expression has a value (conditions of C42) if fractions stay below 2^63, and the answer is the true limit. In particular the limit of a rational function of x at a number where no divisor is 0 is the exact value of the function there, as a single number (or Infinitesimal if that value is 0).", "quantifier": "every expression, point, variable, order and build", "why_tests_cant": "Success must hold for all expressions, and depends on which classes the sub-limits fall into and on whether any intermediate number overflows; tests run a few limits.", "anchors": ["src/compute/limit/mod.rs: limit", "src/compute/limit/limit_expression.rs", "src/compute/limit/rules/*.rs"]}
{"id": "C69", "title": "Away from the literal 0, limits of rational expressions are evaluations", "statement": "For an expression made of numbers, variables, sums, products and quotients and a point that is not the number 0 and contains no subtraction, whatever the build and order: limit answers Normal of num_aggregate of the expression with the point put in for the variable, and panics exactly if that panics; it never answers Infinitesimal or Infinity and never returns Err. So poles away from the literal 0 are missed: the limit of 1/(x + (-1)) at 1 is Normal(1/0) while the function tends to infinity.", "quantifier": "all such expressions of any size, all such points, all variables, orders, builds", "why_tests_cant": "unbounded trees and recursion", "anchors": ["src/compute/limit/mod.rs: limit", "src/compute/limit/rules/add.rs, mul.rs, div.rs", "src/compute/limit/limit_expression.rs"]}
{"id": "C70", "title": "Quotients of polynomials with positive coefficients at 0", "statement": "For two expressions written with positive exact numbers, variables, + and *, in which the lowest powers of x are the i-th and the j-th (so that, for positive other variables, their values are t^i and t^j times functions continuous and positive at 0): as x tends to the literal 0, a run of the limit of their quotient without integer overflow returns, if order_try >= min(i,j), Infinitesimal for i > j, Infinity for i < j, Normal for i = j, and Err if order_try < min(i,j). The answers are true; Normal(c) has a value and the quotient tends to it. As long as the schoolbook fractions met when 0 is put into the derivatives of order 0, ..., min(i,j) stay below 2^63, this is what happens in every build. In release builds the limit of a quotient of expressions made of numbers, variables, sums and products never panics; in debug builds it does not while those fractions, for the orders up to order_try + 1, stay below 2^63.", "quantifier": "all such expressions of any size and degree, all variables, orders, positive assignments", "why_tests_cant": "unbounded trees, degrees and recursion; real limits", "anchors": ["src/compute/limit/rules/div.rs", "src/compute/limit/rules/add.rs, mul.rs", "src/compute/limit/mod.rs: limit", "src/compute/derivative/mod.rs"]}
{"id": "C71", "title": "Sines in quotients at 0: one L'Hopital step works, a second always aborts", "statement": "Let f and g be written with positive integers and fractions, variables, +, * and sines of such expressions that are 0 at x = 0, at least one of them with a sine, and let i and j be their orders of vanishing at x = 0. As long as the schoolbook fractions met when the point is put into the derivatives of order 0, 1 and 2 stay below 2^63, limit of f/g as x tends to 0 does the same in every build: if min(i,j) is at most 1 and at most order_try it answers Infinitesimal if i > j, Infinity if i < j, Normal if i = j, and the answer is true for all positive values of the other variables; if order_try is at most 1 and below min(i,j) it is Err; if order_try and both orders are at least 2 it panics (the derivative of cos contains a minus sign, whose limit is not implemented). E.g. sin(x)*sin(x)/(x*x) panics although its limit is 1, and (1 + (-1)*cos(x))/x panics at the first step.", "quantifier": "all such f and g, variables x, orders, builds, float implementations, positive values of the other variables", "why_tests_cant": "the orders, the depth of nesting and order_try are unbounded; truth is a statement about limits of real functions", "anchors": ["src/compute/limit/rules/div.rs", "src/compute/limit/rules/sin.rs", "src/compute/limit/rules/cos.rs", "src/compute/limit/rules/neg.rs", "src/compute/derivative/rules/cos.rs"]}
{"id": "C72", "title": "The laws of simplification", "statement": "In every build and for every expression e: num_aggregate of 0 + e and of 1 * e is exactly that of e (including whether it panics); of e + 0, e * 1, ln(exp(e)) and exp(ln(e)) it is that of e up to how the constants 0, 1 and e are stored; of e - 0 it is that of e unless that is 0; of e * 0, 0 * e and 0 / e (even 0/0) it is a number recognised as 0 whenever e can be simplified, and panics otherwise; of --e it is that of e if that is not a number and e is written without subtraction (with subtraction it can differ: 0 - (-x)). Division by 1 is kept for everything but numbers. Operands that simplify to the same expression can be exchanged in all ten operations without changing the outcome.", "quantifier": "all expressions, numbers recognised as 0 or 1 (integers, fractions, floats), builds, float implementations", "why_tests_cant": "the laws hold for arbitrary subexpressions and for panics of their simplification", "anchors": ["src/compute/num_aggregate/mod.rs", "src/compute/num_aggregate/rules/add.rs", "src/compute/num_aggregate/rules/mul.rs", "src/compute/num_aggregate/rules/ln.rs", "src/compute/num_aggregate/rules/exp.rs", "src/smart_num/mod.rs"]}
{"id": "C73", "title": "Expansions at rational points are the formal power series", "statement": "Take an expression of x built from exact numbers, x, negation, +, -, *, / by divisors that are not 0 at the point, sin, cos and exp of arguments that are 0 there and ln of arguments that are 1 there (no powers), and an exact number p as the point. Every coefficient of an expansion at p in which nothing wraps is then a single exact number, namely the rational coefficient of the formal power series of the expression in X = x - p (sums, products, inverses and compositions of series as in algebra); this series is unique, and its coefficients are f^(k)(p)/k! for the real function f. So 1/(1-x) at 0 gives coefficient 1 at every order and ln(1+x) gives (-1)^(k+1)/k.", "quantifier": "all such expressions, exact points, orders", "why_tests_cant": "unbounded expressions and orders", "anchors": ["src/compute/taylor_expansion/mod.rs: taylor_expansion", "src/compute/derivative/mod.rs: derivative", "src/compute/num_aggregate/mod.rs: num_aggregate"]}
{"id": "C74", "title": "The algebra of limits", "statement": "For all expressions a, b, points, orders and builds the outcome for a+b, a*b and a/b is determined by those for a and b. Sums: Infinitesimal adds nothing; Normal(c) and Normal(d) give Normal of c+d simplified (panic if simplifying panics); Infinity on exactly one side gives Infinity. Products: Infinitesimal with a finite answer gives Infinitesimal, two Normals Normal of c*d simplified, Infinity with Infinity or a Normal (even 0) Infinity. Quotients: finite over Infinity is Infinitesimal, Infinity over finite is Infinity, two Normals give Normal of c/d simplified (even for d = 0), Infinitesimal over a Normal other than the number 0 is Infinitesimal, such a Normal over Infinitesimal is Infinity. If the quotient is 0/0 or Infinity/Infinity and a', b' are the derivatives: Err for order_try = 0; an answer for a'/b' with order_try = k is the answer for a/b with order_try = k+1, and an answer for a/b is the answer for a'/b' with the same order_try. Err and panics of the operand looked at first (right in sums and products, left in quotients) are passed on, as are those of the other operand when the first has an answer.", "quantifier": "all expressions, variables, points, orders, both builds, every float implementation", "why_tests_cant": "unbounded recursion through trees and L'Hopital steps", "anchors": ["src/compute/limit/rules/add.rs", "src/compute/limit/rules/mul.rs", "src/compute/limit/rules/div.rs", "src/compute/limit/limit_expression.rs", "src/compute/limit/mod.rs"]}
{"id": "C75", "title": "Reading a limit answer", "statement": "The answer of a limit can always be printed: 0 for Infinitesimal, infinity for Infinity, the expression for Normal. Among answers whose expressions are readable (C47), two are printed alike exactly if they are the same (Normal expressions up to the grouping of equally tightly binding operators), or one is Infinitesimal and the other Normal(0), or one is Infinity and the other the variable named infinity. So, where no variable has that name and no right operand of -, / and ^ binds as tightly as its operator, the printed answer determines the limit described.", "quantifier": "all expressions, points, variables, orders, builds, pairs of answers", "why_tests_cant": "unbounded pairs of trees", "anchors": ["src/compute/limit/limit_expression.rs: Display", "src/compute/limit/mod.rs: limit", "src/ast/tree.rs: to_string_raw"]}
{"id": "C76", "title": "Rounding errors through a whole limit search", "statement": "Propagate errors through the rules of limits: an expression with a value at the point is evaluated there with rounding at every step (C65), a quotient that took i L'Hopital steps by evaluating the quotient of the i-th derivatives (C66), and sums, products and quotients of such by the operation on the ranges, widened by one rounding; a dividend other than 0 over a divisor answered Infinitesimal is infinite, infinite operands combine by the rules of limits (finite over infinite is 0; infinite plus finite, over finite, times a finite value other than 0, times infinite are infinite). If this ends in a range S and the expression is defined near the point, then whatever answer limit gives, the true limit exists and lies in S, and the answer is Infinitesimal with true limit 0 or a Normal in S, as is its float. If it ends with infinite, every answer is Infinity and the absolute value tends to infinity. In doubles, sin(pi*x)/(3*x) + pi at 0 is answered with a number within 2^-29 of 4*pi/3, sin(pi*x)/(3*x) * (1/x) with Infinity.", "quantifier": "all expressions, points, orders, environments, ranges, float implementations with bounded rounding", "why_tests_cant": "unbounded expressions and L'Hopital steps; every float rounding", "anchors": ["src/compute/limit/rules/add.rs", "src/compute/limit/rules/mul.rs", "src/compute/limit/rules/div.rs", "src/compute/limit/limit_expression.rs", "src/compute/limit/mod.rs: limit"]}
{"id": "C77", "title": "What overflow does to exact numbers", "statement": "Complete description for all inputs. Integers i and j: +, -, * and unary - return in an overflow-checking build exactly if the exact result fits in an i64; a release build always returns the integer congruent to it modulo 2^64. i/j (j not 0) is exact in every build that returns; release always returns, debug unless i or j is i64::MIN and i is not 0. Fractions: a release build computes nominator and denominator of products and quotients modulo 2^64 and of sums and differences the signed nominator modulo 2^64 (in -2^63..2^63-1) and the denominator modulo 2^64, then cancels. A debug build returns a product or quotient exactly if both unreduced products are below 2^64; with cross products below 2^63 a sum or difference panics exactly if the product D of the denominators reaches 2^64 or the exact result times D reaches 2^63 (without that condition: by the cast cross products). Numbers of mixed representation: an integer i next to a fraction behaves as the fraction i/1, except that i64::MIN panics in debug. So in release 2^32 * 2^32 is 0, 1/2^32 * 1/2^32 is 1/0, and 1/3 + 1/2^63 is negative.", "quantifier": "all pairs of integers, of fractions, and of an integer and a fraction that the API can store, both builds", "why_tests_cant": "2^128 and more operand pairs", "anchors": ["src/smart_num/rational.rs: Add, Sub, Mul, Div, reduce", "src/smart_num/val_holder.rs: Add, Sub, Mul, Div, Neg", "src/smart_num/mod.rs"]}
{"id": "C78", "title": "The residual bounds the error of an expansion", "statement": "If an expansion of order n at a point p with value is computed without overflow and the restrictions of C34 hold, then its residual stands for the derivative of order n + 1 wherever the expression has a value (if it has an exact value, it is that derivative, and it has one if it contains no rounded float), and if the expression has a value on the whole segment from p to s and every coefficient has one, then the value at s minus that of the polynomial with the returned coefficients is the derivative the residual stands for at some place strictly between p and s, times (s-p)^(n+1)/(n+1)! (Taylor's theorem in Lagrange's form). So a bound M for the absolute value of the residual between p and s bounds the error by M*|s-p|^(n+1)/(n+1)!. In every build, for every order n up to 20 and every real s: the expansion of sin x at 0 is within |s|^(n+1)/(n+1)! of sin s, that of exp x within exp(max(s,0))*|s|^(n+1)/(n+1)! of exp s.", "quantifier": "all expressions, points, orders, environments and places s; all float implementations", "why_tests_cant": "unbounded expressions and orders, every real s; the error bound is a statement about real analysis", "anchors": ["src/compute/taylor_expansion/partial_expansion.rs: taylor_expansion, PartialExpansion", "src/compute/derivative/mod.rs: derivative"]}
{"id": "C79", "title": "Reading a printed expansion", "statement": "The printed text of an expansion at a of an expression in x is, letter for letter, the text of the expression c0 * b^0 + c1 * b^1 + ... (b is x - a simplified, only the coefficients that are not the exact zero) followed by + O(b^(n+1)); it is the O-term alone if every coefficient is zero. Where the coefficients have values, that expression has the value of the Taylor polynomial they define at x minus the value of a. Hence, if the coefficients and b are readable and unambiguous in the sense of C47, every readable, unambiguous expression whose text stands before the O-term has the value of the Taylor polynomial. Without readability this fails: a negative first coefficient reads like the negation of the whole sum (the expansion of -(cos x / 2)).", "quantifier": "all expressions, points, orders, environments; the text for both builds, the value for runs without overflow; all float implementations", "why_tests_cant": "unbounded expressions and orders; all expressions that could have the printed text", "anchors": ["src/compute/taylor_expansion/partial_expansion.rs: Display", "src/ast/tree.rs: to_string_raw", "src/compute/taylor_expansion/mod.rs: taylor_expansion"]}
{"id": "C80", "title": "Polynomials with integer coefficients are computed exactly, or modulo 2^64", "statement": "Take an expression made of integers, variables, unary -, +, - and * and the polynomial it writes. In an overflow-checking build whatever num_aggregate returns writes the same polynomial, whatever derivative returns writes its partial derivative, and substitute puts one polynomial into another. In a release build all three always return and the same holds with the coefficients read modulo 2^64, however often operations wrap. An expression without variables simplifies to one integer: the integer written (checked build, returning exactly if the integers written by all its subexpressions fit in an i64) or the one congruent to it modulo 2^64 (release). Hence two expressions that write the same polynomial give identical numbers in release builds when integers are put in, whatever the order and grouping of the operations; in checked builds they agree if both return, and grouping can decide whether they do.", "quantifier": "all such expressions, variables, substituted expressions and integers; both builds; all float implementations", "why_tests_cant": "unbounded expressions; identity of polynomials modulo 2^64", "anchors": ["src/compute/num_aggregate/mod.rs: num_aggregate", "src/compute/derivative/mod.rs: derivative", "src/compute/substitute/mod.rs: substitute", "src/smart_num/val_holder.rs: Add, Sub, Mul, Neg"]}
{"id": "C81", "title": "The algebra of expansions", "statement": "Expand expressions by x at the same point to the same order without overflow, under the restrictions of C34, and let every coefficient have an exact value. Then the coefficients follow the rules for power series, exactly: those of -a, a + b and a - b are the negatives, sums and differences; those of a * b the Cauchy products; for a / b the Cauchy product of the quotient's and the divisor's coefficients gives the dividend's (and the divisor's first coefficient is not 0); those of exp(a), ln(a), sin(a), cos(a) and a^c (c without x) satisfy the recurrences given by their differential equations, which with the first coefficient determine them; coefficient k of the derivative of a is k + 1 times coefficient k + 1 of a.", "quantifier": "all expressions, points, orders, environments; all float implementations", "why_tests_cant": "unbounded expressions and orders; relates runs of taylor_expansion on different expressions", "anchors": ["src/compute/taylor_expansion/partial_expansion.rs: taylor_expansion", "src/compute/taylor_expansion/mod.rs", "src/compute/derivative/mod.rs: derivative"]}
{"id": "C82", "title": "Composition of expansions", "statement": "Expand s by x at v, e by y at a point with the value of s at v, and the expression obtained by substituting s for y in e by x at v, all to the same order without overflow, under the restrictions of C34 and with exact coefficients (y is x, or x does not occur in e). Then the coefficients of the third are exactly those of the composition of the two polynomials (the one of s without its constant term), up to the order. In particular shifting x by a constant keeps the coefficients, scaling by c multiplies coefficient k by c^k, and the first three obey the chain rule.", "quantifier": "all expressions, points, variables, orders, environments; all float implementations", "why_tests_cant": "unbounded expressions and orders; relates substitute and three runs of taylor_expansion", "anchors": ["src/compute/taylor_expansion/partial_expansion.rs: taylor_expansion", "src/compute/substitute/mod.rs: substitute", "src/compute/derivative/mod.rs: derivative"]}
{"id": "C83", "title": "Limits agree with expansions", "statement": "Let a and b have Taylor expansions at the point with exact values, the first coefficient of b other than 0 being number j and coefficients 0 to i - 1 of a being 0, coefficient i (if the order reaches it) not 0. Then an answer of limit for a / b at that point (where the restrictions of C51 hold) is Infinitesimal only if i > j, Infinity only if i < j, and Normal(c) only if c stands for the quotient of coefficient i of a by coefficient j of b and i = j, or for 0 and i > j. And where the expression itself has an expansion, the answer is never Infinity, is Infinitesimal only if the constant coefficient is 0, and Normal(c) only if c stands for the constant coefficient.", "quantifier": "all expressions a, b and points with exact expansions under the restrictions of C34, all orders of the expansions, all order_try, all answers of limit under the restrictions of C51", "why_tests_cant": "two independent features, the limit search with its L'Hopital steps and the expansion with its repeated derivatives, must agree for all expressions", "anchors": ["src/compute/limit/rules/div.rs: div_limit_expr_rule", "src/compute/limit/mod.rs: limit", "src/compute/taylor_expansion/partial_expansion.rs"]}
{"id": "C84", "title": "Equal functions get equal limits", "statement": "Two expressions that have the same value at every argument near a point (other than the point itself), each asked for its limit there under the restrictions of C51, with any two values of order_try and any two ways of writing the point, never get contradictory answers: both are Infinity, or both are finite and name the same number (Infinitesimal names 0, Normal(c) the value of c). In particular simplifying an expression with num_aggregate before asking does not change the limit. The restriction on the search is needed: (1/x)*0 at 0 is answered Infinity, its simplified form 0 is answered Normal(0).", "quantifier": "all pairs of expressions equal near the point, all points and orders, all answers of limit under the restrictions of C51", "why_tests_cant": "a relation between two runs on any two different expressions for one function", "anchors": ["src/compute/limit/mod.rs: limit", "src/compute/limit/limit_expression.rs", "src/compute/num_aggregate/mod.rs: num_aggregate"]}
{"id": "C85", "title": "Equal functions get equal derivatives and expansions", "statement": "Under the restrictions of C30, the derivatives of two expressions that have the same values near a point have the same value there. Under the restrictions of C34 and where the coefficients have exact values, the expansions of two expressions at a point (written in any two ways) have the same coefficients if the expressions have the same values near the point; and coefficients 0 to N agree if and only if the difference of the two functions is o((t - p)^N).", "quantifier": "all pairs of expressions, points, orders of expansion, N up to both orders", "why_tests_cant": "a relation between two runs on any two different expressions", "anchors": ["src/compute/derivative/mod.rs: derivative", "src/compute/taylor_expansion/partial_expansion.rs: taylor_expansion"]}
{"id": "C86", "title": "Limits and expansions eliminate the variable", "statement": "Every variable of a Normal limit answer, and of every coefficient of an expansion, occurs in the point, or occurs in the expression and is not the variable x that is sent to (expanded at) the point. So if the point does not mention x, no answer and no coefficient does. The residual of an expansion mentions only variables of the expression.", "quantifier": "all expressions, points, variables, orders, both builds", "why_tests_cant": "unbounded expressions, and searches with any number of rewritings and L'Hopital steps", "anchors": ["src/compute/limit/mod.rs: limit", "src/compute/taylor_expansion/partial_expansion.rs: taylor_expansion", "src/compute/substitute/mod.rs: substitute"]}
{"id": "C87", "title": "Conversions to f64 and float arithmetic are correctly rounded", "statement": "to_f64 of an integer, and of a fraction whose nominator and denominator are at most 2^53, is the IEEE-754 rounding of its exact value (no double is nearer; ties go to the even mantissa), exact for integers up to 2^53. So comparing such numbers by to_f64 never contradicts their exact order, and equal numbers have equal floats however the fraction is written. If an operand of + - * / is a float, the operator does not panic and its result is the correct rounding of the exact result on the operands' floats, or the infinity with its sign if that is at least (2^54-1)*2^970 (division by 0 aside, see C88); - of a float is exact. is_close compares the correct rounding of the difference with eps, and is exact on integers up to 2^52. Beyond 2^53 this fails: (2^53+1)/3 is an integer whose to_f64 ends in .5, and of two fractions the smaller can have the larger float.", "quantifier": "all integers, fractions, floats and tolerances, both builds", "why_tests_cant": "2^64 integers, 2^106 fractions and 2^128 pairs of floats", "anchors": ["src/smart_num/rational.rs: to_f64", "src/smart_num/val_holder.rs: to_f64, add, sub, mul, div, neg, is_close", "src/smart_num/mod.rs: to_f64, is_close"]}
{"id": "C88", "title": "Infinities and NaN: IEEE-754, except that an exact 0 absorbs", "statement": "If an operand of + - * / is a float, the operator does not panic, and: with a NaN the result is NaN; infinity plus or minus a finite number is infinity (negated if subtracted); infinities of the same sign add and of opposite signs subtract to infinity, and otherwise give NaN; infinity times infinity is infinity with the product of the signs, infinity over infinity is NaN; infinity times or over a finite number other than 0 is infinity with the product of the signs, a finite number over infinity is 0; a number other than 0 over the float 0.0 or -0.0 is infinity with the product of the signs, 0.0 over 0.0 and infinity times 0.0 are NaN. Exception to IEEE-754: an exact 0 times anything, and divided by anything that is a float, is the exact 0, even with NaN, infinity and 0.0. is_close answers true for finite numbers only.", "quantifier": "all numbers, both builds", "why_tests_cant": "2^128 pairs of operands, times the shapes of an exact number", "anchors": ["src/smart_num/val_holder.rs: add, sub, mul, div, is_close", "src/smart_num/mod.rs: add, sub, mul, div, is_close"]}
{"id": "C89", "title": "Expressions compute exactly what the number operators compute", "statement": "For a formula built from numbers and variables with unary - and + - * /: substituting numbers of any kind for the variables and simplifying with num_aggregate gives exactly the number, or exactly the panic, that computing the formula directly with the operators of numbers gives: nothing is reassociated, reordered or rounded differently. If all numbers are floats, it succeeds in every build and is the float that the same operations of f64 give, bit for bit. And simplifying with num_aggregate before substituting does not change the number obtained by substituting and simplifying: the same integer, the same fraction, or the same double to the last bit (provided no number on the way is a fraction worth 0, 1 or -1, which -(-x) and the short cuts may turn into an integer).", "quantifier": "all formulas, all numbers for the variables, every list of substitutions that covers the variables, both builds", "why_tests_cant": "unbounded formulas times all numbers; a difference in the last bit only shows for particular floats", "anchors": ["src/compute/num_aggregate/mod.rs: num_aggregate", "src/compute/num_aggregate/rules/add.rs", "src/compute/num_aggregate/rules/sub.rs", "src/compute/num_aggregate/rules/mul.rs", "src/compute/num_aggregate/rules/div.rs", "src/compute/num_aggregate/rules/neg.rs", "src/compute/substitute/mod.rs: substitute", "src/smart_num/mod.rs: add, sub, mul, div, neg"]}
{"id": "C90", "title": "Limits and substitution", "statement": "Let u tend to a number p as y tends to q, by an answer of limit, without being equal to p near q. Then the answers of limit for e as x tends to p, and for e with u substituted for x as y tends to q, do not contradict each other: both are Infinity, or both are finite and name the same number (all under the restrictions of C51; e does not contain y, unless y is x). In particular limits are translation invariant: the answer for e at a point and the answer at 0 for e with x + point substituted for x agree.", "quantifier": "all expressions e and u, points, variables, values of order_try, all answers under the restrictions of C51", "why_tests_cant": "a relation between three searches on any expressions, and the substitution", "anchors": ["src/compute/limit/mod.rs: limit", "src/compute/substitute/mod.rs: substitute", "src/compute/limit/limit_expression.rs"]}
{"id": "C91", "title": "The derivative is the limit of the difference quotient", "statement": "Substitute a point and the point plus a new variable h for x in e, and ask for the limit of (e(point + h) + (-1) * e(point)) / h at h = 0. If it is answered (under the restrictions of C51 and C30), the answer is finite, the number it names is the derivative of e at the point, the expression that derivative returns stands for that number there, and so does the coefficient of order 1 of the expansion of e at the point. The restrictions exclude two ways of asking that get wrong answers: the quotient (e + (-1) * e(point)) / (x + (-1) * point) at the point, whose operands both have the limit Normal(0) (x * x at 3 gives 0 instead of 6), and symbolic points (x * x at x gives Infinity).", "quantifier": "all expressions e, points, variables, values of order_try and answers under the restrictions of C51 and C30", "why_tests_cant": "a relation between limit, substitute, derivative and taylor_expansion on any expression", "anchors": ["src/compute/limit/mod.rs: limit", "src/compute/derivative/mod.rs: derivative", "src/compute/substitute/mod.rs: substitute", "src/compute/taylor_expansion/partial_expansion.rs: taylor_expansion"]}
{"id": "C92", "title": "Limits and order", "statement": "Under the restrictions of C51: if the value of a is at most that of b near the point, the number named by the limit of a is at most that named by the limit of b. An expression between two expressions whose limits are the same number gets an answer that names this number, if it gets one. If the limit of e is the number r, the value of e near the point lies between any two numbers around r, so it has the sign of r. If the answer is Infinity, the absolute value of e exceeds every bound near the point, so bounded expressions never get this answer.", "quantifier": "all expressions, points, variables, values of order_try, answers and bounds under the restrictions of C51", "why_tests_cant": "a relation between answers for different expressions whose values are compared on a neighbourhood", "anchors": ["src/compute/limit/mod.rs: limit", "src/compute/limit/limit_expression.rs"]}
{"id": "C93", "title": "order_try is the number of steps of L'Hopital's rule", "statement": "Call attempt i at a limit of a / b: the limits of the i-th derivatives of a and of b. limit returns z exactly if, among the attempts number 0 to order_try, there is a first one that does not find 0/0 or Infinity/Infinity, its two limits exist, and z is their quotient by the table (anything else over Infinity is Infinitesimal, Infinity over anything else Infinity, Infinitesimal over Normal other than 0 Infinitesimal, Normal other than 0 over Infinitesimal Infinity, Normal(c) over Normal(d) is c / d simplified). It gives up exactly if all these attempts are indeterminate or a limit of the first other attempt gives up. It panics exactly if a limit of the first other attempt panics, if a derivative panics on the way there (including those of order order_try + 1, which are computed in vain after the last attempt), or if simplifying c / d panics. No attempt after the first that is not indeterminate has an effect.", "quantifier": "all expressions a, b, points, variables, values of order_try, both builds, every float implementation", "why_tests_cant": "2^64 values of order_try times all expressions; each attempt is a search of its own", "anchors": ["src/compute/limit/rules/div.rs", "src/compute/limit/mod.rs: limit", "src/compute/limit/limit_expression.rs: div", "src/compute/derivative/mod.rs: derivative"]}
{"id": "C94", "title": "What a derivative tells about its expression", "statement": "Let an expression e have a value (with powers as in C30) for x on the whole segment from p to s, and let derivative return d for it (without wrap-around, restrictions of C30). Then e at s minus e at p is (s - p) times the number d stands for at some place strictly between p and s. If d is at least 0 between p and s, e grows there, if at most 0 it falls, strictly if d is never 0; if d is 0, e is constant; if d is never 0, e takes no value twice; if |d| is at most M, values differ by at most M times the distance. Conversely where e grows d stands for a number at least 0, where it falls for one at most 0, and at every local maximum or minimum strictly between p and s for 0. Two expressions whose derivatives have equal values between p and s differ by a constant there. If d has a value on the whole segment, its integral from p to s is e at s minus e at p.", "quantifier": "all expressions, variables, segments and values of the other variables, every float implementation", "why_tests_cant": "a relation between an expression returned by the program and the infinitely many values of another expression on a segment", "anchors": ["src/compute/derivative/mod.rs: derivative", "src/compute/derivative/rules"]}
{"id": "C95", "title": "The first non-zero coefficient of an expansion decides", "statement": "Let coefficient k (k at least 1, at most the order) be the first of an expansion at p after the constant term that is not forced to be 0: those of order 1 to k - 1 have the value 0 (no wrap-around, restrictions of C34). Then (e(s) - e(p)) / (s - p)^k tends to the value of coefficient k as s tends to p. So for even k the point is a strict local minimum of the expression if coefficient k is positive and a strict local maximum if it is negative; for odd k the values cross e(p) there, upwards or downwards. Conversely at a local minimum coefficient 1 is 0 and coefficient 2 at least 0, at a local maximum coefficient 2 is at most 0.", "quantifier": "all expressions, points, orders, k, values of the other variables, every float implementation", "why_tests_cant": "a relation between the returned coefficients and infinitely many values of the expression", "anchors": ["src/compute/taylor_expansion/partial_expansion.rs: taylor_expansion", "src/compute/derivative/mod.rs: derivative"]}
{"id": "C96", "title": "Quotients of polynomials at 0: only cancellation can hurt", "statement": "Take two expressions written with exact numbers other than 0 (of any sign), variables, + and *. Fix a sign, + or -, for every variable, and multiply the two out, without collecting: if in each of them all terms with the same power of x have the same sign (so that nothing cancels), and the lowest powers of x are the i-th and the j-th, then for all values of the variables with these signs the values are polynomials in x whose coefficients have the signs of the terms, and as x tends to the literal 0 a run of the limit of the quotient without integer overflow returns, if order_try >= min(i,j), Infinitesimal for i > j, Infinity for i < j, Normal for i = j, and Err if order_try < min(i,j). The answers are true: Normal(c) has a value, the quotient tends to it, and its sign is the quotient of the signs of the lowest terms. As long as the schoolbook fractions met when 0 is put into the derivatives of order 0, ..., min(i,j) stay below 2^63, this is what happens in every build. With all variables positive this contains the positive polynomials of C70; the condition is needed: (y + (-1)*y)/x is answered Infinity.", "quantifier": "all such expressions of any size and degree, all variables, orders, assignments with the given signs, every float implementation", "why_tests_cant": "unbounded trees, degrees and recursion; real limits", "anchors": ["src/compute/limit/rules/div.rs", "src/compute/limit/rules/add.rs, mul.rs", "src/compute/limit/mod.rs: limit", "src/compute/derivative/mod.rs"]}
{"id": "C97", "title": "What higher derivatives tell about an expression", "statement": "Let derivative be called k times in a row, starting with e, each time successfully (no wrap-around, restrictions of C30). Where e has a value (with powers as in C30), the k-th result stands for the k-th derivative of e by x. Now let e have a value for x on the whole segment from p to s. If for some k at least 1 the k-th result is never 0 strictly between p and s, e takes no value more than k times on the segment; if it is 0 there, e has the values of a polynomial in x of degree less than k. If the second result is at least 0 between p and s, the curve of e lies below its chords and above its tangents, whose slope is what the first result stands for, and each place where the first result is 0 is the minimum of e on the segment; if it is at most 0, above its chords and below its tangents, and such a place is the maximum; if it is positive or negative, the chords are strictly above or below. Conversely where the curve lies below its chords the second result stands for a number at least 0, where above for one at most 0.", "quantifier": "all expressions, variables, k, segments and values of the other variables, every float implementation", "why_tests_cant": "a relation between results of repeated calls and the infinitely many values of the expression on a segment, for every number of calls", "anchors": ["src/compute/derivative/mod.rs: derivative", "src/compute/derivative/rules"]}
{"id": "C98", "title": "The residual tells on which side of an expansion the expression lies", "statement": "Let taylor_expansion return an expansion of order n at p (no wrap-around, restrictions of C34; its coefficients have values), and let the expression have a value for x on the segment from p to s, s not p. If the residual is positive strictly between p and s, then at s the expression is greater than the expansion if s > p or n is odd, and less if s < p and n is even; if the residual is negative, the other way round; if it is 0, the two are equal. If the residual lies between lo and hi there, the error lies between lo and hi times (s-p)^(n+1)/(n+1)!, or between hi and lo times it if this is negative. If the residual has the value w at p, the error divided by (s-p)^(n+1) tends to w/(n+1)! as s tends to p. For exp(x) at 0 and n up to 20 this holds in every build: the expansion is below exp(x) everywhere but at 0 if n is odd, below right of 0 and above left of 0 if n is even.", "quantifier": "all expressions, points, orders, segments and values of the other variables, every float implementation", "why_tests_cant": "a relation between the returned residual, the returned coefficients and infinitely many values of the expression", "anchors": ["src/compute/taylor_expansion/partial_expansion.rs: taylor_expansion", "src/compute/derivative/mod.rs: derivative"]}
{"id": "C99", "title": "Locating the zeros of an expression with its derivatives", "statement": "Let an expression e have a value (with powers as in C30) for x on the whole segment from p to s, and let derivative return d for e and dd for d (no wrap-around, restrictions of C30). If e is at most c at one place of the segment and at least c at another, it has the value c somewhere between the two, and at exactly one place of the segment if d is never 0 strictly between p and s. If |d| is at least M > 0 there, a place where e has the value w is at most |w|/M away from every zero of e on the segment. If |dd| is at most B there, and at a place a of the segment e has the value w and d the value w' with |w'| at least M > 0, then Newton's step a - w/w' is at most B/(2M) (a-u)^2 away from every zero u of e on the segment.", "quantifier": "all expressions, variables, segments, places, bounds and values of the other variables, every float implementation", "why_tests_cant": "relations between the returned derivatives and the infinitely many values of the expression on a segment", "anchors": ["src/compute/derivative/mod.rs: derivative", "src/compute/derivative/rules"]}
