{
 "C05": {
  "status": "partial",
  "note": "lcm is correct for two arguments and always a common multiple; for three or more arguments (and for one) the library returns product // gcd, which is not the least common multiple: negation witness proved (Finding F1)."
 },
 "C30": {
  "status": "partial",
  "note": "Tree, prefix-freeness, covering, at most 2^n words: proved for every order of expansion. 'No room for another expansion' is false of the code when the last expansion would fit exactly (TunstallCode.py:107 subtracts one); witness C30_exact_fit_is_missed."
 },
 "C79": {
  "status": "partial",
  "note": "True when the table is in lexicographic order; false in general (FixedToVariableCode.py:434-438 pairs insertion-order lengths with lexicographic probabilities); witness C79_order_matters."
 },
 "C46": {
  "status": "partial",
  "note": "False of the code: CyclicCode(systematic=False) looks the table up with the remainder modulo g but the table is indexed by v H^T (CyclicCode.py:211-217 vs 373-380); witness C46_single_error_not_corrected. Proved: error-free words decode; the systematic variant corrects all patterns up to half the distance."
 },
 "C64": {
  "status": "partial",
  "note": "False of the code: input_edges keeps the last parallel input (MealyMachine.py:123-127), so the labels returned may not attain the minimum; witness C64_parallel_not_ml. Proved: final metrics are the minima and the state path is right."
 },
 "C80": {
  "status": "partial",
  "note": "Chunk independence, carried metrics = minima, and the exact output are proved. The documented survivor is not used: the best state after the observation selects a path stored before it (MealyMachine.py:270-272); witness C80_noiseless_wrong."
 },
 "C90": {
  "status": "partial",
  "note": "Full property proved for k = 1 (C90_direct_rate_one, C90_zero_rate_one, C90_zero_low_rate). For k >= 2 the code returns the bits of each block of k in reverse order: NaturalLabeling is most-significant-first, the state machine least-significant-first; C90_direct_partial and C90_zero_partial prove exactly this for every k, C90_bits_swapped is the witness."
 },
 "C99": {
  "status": "partial",
  "note": "True answers, exceptions, and all answers for k = 1 and high-rate codes are proved right. A False answer is proved right when the other computed factors are powers of D (C99_false_partial); in general it is false of the code, which tests only the last factor of a diagonal form without the divisibility property; witness C99_wrong_false."
 },
 "C105": {
  "status": "partial",
  "note": "Accuracy is proved when no term of index below x^2/2 is under the tolerance (in particular x^2/2 <= m); C105_early_exit proves that the result is wrong in general."
 }
}