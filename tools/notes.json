{
 "C01": {
  "note": "All integers; the negative-exponent behaviour of the code (returns x) is part of the claim."
 },
 "C02": {
  "note": "C02_power_modulo_refuted records that for n = 0, p = 1 the result 1 is not the canonical residue; the claim is stated for n >= 1."
 },
 "C03": {
  "note": ""
 },
 "C05": {
  "note": "Moduli positive and pairwise coprime."
 },
 "C07": {
  "note": ""
 },
 "C08": {
  "note": "C08_variable_from_index_exact characterises every index; the stronger claims that every index below count works and that every other index panics are false (C08_*_refuted)."
 },
 "C11": {
  "status": "partial",
  "note": "== implies equal values always; equal values imply == for polynomials without stored zeros (closed under + and -). The unrestricted converse is false: C11_eq_iff_val_refuted."
 },
 "C14": {
  "note": "n >= 1; C14_power_modulo_refuted records the n = 0 behaviour."
 },
 "C17": {
  "status": "partial",
  "note": "The property is false for this code: C17_is_gcd_one_refuted proves it answers true for every non-coprime pair and never answers for coprime ones."
 },
 "C24": {
  "note": "n != 0; C24_to_frob_refuted records the n = 0 collapse."
 },
 "C43": {
  "status": "partial",
  "note": "O + P = P proved; P + O = P is false for every affine point: C43_plus_zero_refuted."
 },
 "C46": {
  "note": "C46_multiply_scalar_iff characterises exactly when the result is n*P; C46_exceptional gives the result in the remaining case."
 },
 "C47": {
  "status": "partial",
  "note": "The property is false: multiply_scalar(P,-n) = multiply_scalar(P,n) for every point (C47_negative_scalar_partial), which is not -(nP) unless 2P = O (C47_negative_scalar_refuted)."
 },
 "C49": {
  "status": "partial",
  "note": "C49_iff gives the exact set for every curve and n; equality with the n-torsion proved for odd group order or |n| a power of two (C49_exact); false in general: C49_division_points_refuted."
 },
 "C51": {
  "status": "partial",
  "note": "Returns a curve over the same field; equal cardinality is false: C51_isogeny_refuted, and for every curve with reduced coefficients isogeny(1) gives y^2 = x^3 (C51_isogeny_one_refuted)."
 },
 "C53": {
  "status": "partial",
  "note": "The property is false: C53_parity_refuted proves that whenever schoof returns for a nonsingular curve over an odd prime field the entry is 1 mod 2 while the trace is even; C53_odd_trace_diverges: it never returns when the trace is odd."
 },
 "C56": {
  "status": "partial",
  "note": "The property is false: C56_atkin_refuted proves that sea never returns for an Atkin prime."
 },
 "C61": {
  "status": "partial",
  "note": "The property is false: C61_trace_mod_three_refuted is a counterexample (y^2 = x^3 + 2x over GF(5), entry 2 mod 3, trace 4). The shape of the entry is C54. The exact entry modulo 3 is C67 (q = 2 mod 3) and C73 (q = 1 mod 3)."
 },
 "C74": {
  "note": "A sufficient condition; the exact domain is C84."
 },
 "C75": {
  "note": "The existence half is for every prime. The bound 214 for the function: from p = 223 on the exponent p^2(p+1)^2 of the highest power of q in j(q^p)^(p+1) leaves the range of i32."
 },
 "C85": {
  "status": "partial",
  "note": "The property is false: C85_representative_refuted (a = 2 and a = 6481 modulo 19). C85_same_answer: if both calls return, the answers are equal. C85_same_domain: whether they return agrees for a = a', or q neither 1 mod 3 nor 1 mod 5."
 },
 "C62": {
  "note": "The bound for the modulus is sharpened in C84_large: no prime q > 26754 returns."
 },
 "C84": {
  "note": "StepReturns and TailOk (Spec/SchoofDomain) are stated with Mathlib's division polynomials over ZMod q; t is q+1 minus the number of points of Mathlib's curve."
 }
}