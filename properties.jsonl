{"id": "C01", "title": "Secret key byte round trip", "statement": "SecretKey::from_bytes(b) succeeds exactly when b is 48 bytes long (IncorrectSize otherwise), never panics, and as_bytes of the resulting key is b again, including keys that are zero or not reduced modulo the group order.", "quantifier": "every byte string of every length", "why_tests_cant": "2^384 valid inputs plus every wrong length; tests sample a handful", "anchors": ["src/keys.rs:SecretKey::from_bytes", "src/keys.rs:SecretKey::as_bytes", "amcl/src/bls381/big.rs:frombytearray", "amcl/src/bls381/big.rs:tobytearray"]}
{"id": "C02", "title": "Public key is the scalar multiple of the generator", "statement": "PublicKey::from_secret_key(sk) never panics and represents exactly n*G on the curve y^2=x^3+4 over F_p, where n is the big-endian integer in the key bytes and G the published generator, group law being the textbook chord-and-tangent law.", "quantifier": "every 48-byte secret key", "why_tests_cant": "the windowed scalar multiplication over 7x58-bit limbs has carry, sign and exceptional-case behaviour that random tests practically never hit", "anchors": ["src/keys.rs:PublicKey::from_secret_key", "amcl/src/bls381/ecp.rs:mul", "amcl/src/bls381/ecp.rs:add", "amcl/src/bls381/ecp.rs:dbl"]}
{"id": "C03", "title": "Key derivation depends only on the key modulo the group order", "statement": "Two secret keys whose integers are congruent modulo the group order r give equal public keys with identical encodings, and keys not congruent mod r give different public keys.", "quantifier": "every pair of 48-byte secret keys", "why_tests_cant": "a statement about pairs of keys out of 2^768", "anchors": ["src/keys.rs:PublicKey::from_secret_key", "amcl/src/bls381/rom.rs:CURVE_ORDER"]}
{"id": "C04", "title": "Signature is the scalar multiple of the message point", "statement": "Signature::new_hashed(re,im,sk) is n*map(re,im) on the twist y^2=x^3+4(1+i) over F_p^2 whenever the mapping loop ends, and Signature::new(msg,d,sk) is n*H(msg,d); no panic or overflow.", "quantifier": "every message, every 64-bit domain, every 48-byte secret key, every hash function with 32-byte output", "why_tests_cant": "unbounded messages and 2^384 keys", "anchors": ["src/signature.rs:Signature::new", "src/signature.rs:Signature::new_hashed", "amcl/src/bls381/ecp2.rs:mul"]}
{"id": "C05", "title": "Sign then verify succeeds", "statement": "If sig = Signature::new(msg,d,sk) and pk = PublicKey::from_secret_key(sk) with sk not a multiple of r, then sig.verify(msg,d,pk) is true; the same for new_hashed and verify_hashed.", "quantifier": "every message, domain and secret key", "why_tests_cant": "needs all keys and messages", "anchors": ["src/signature.rs:Signature::verify", "src/keys.rs:PublicKey::from_secret_key", "src/amcl_utils.rs:ate_pairing"]}
{"id": "C06", "title": "Verification accepts exactly one signature point per key and message", "statement": "For signature points of order dividing r and a finite key pk = n*G, verify(msg,d,pk) accepts sig iff sig is the unique point n*H(msg,d); in particular it is false for a different message point, wrong key, or altered signature. A finite key outside the subgroup (the decoders accept such keys) verifies as its component in the subgroup.", "quantifier": "every signature point, key, message and domain", "why_tests_cant": "absence of any other accepted signature is a universal statement", "anchors": ["src/signature.rs:Signature::verify", "src/signature.rs:Signature::verify_hashed"]}
{"id": "C07", "title": "Aggregate public key is the group sum", "statement": "AggregatePublicKey::from_public_keys(keys) and any sequence of add/add_aggregate calls represent exactly the sum in the curve group of all the points added (infinity for none), for every input including equal points, opposite points and infinity.", "quantifier": "every finite list of public keys / every history of add and add_aggregate calls", "why_tests_cant": "histories are unbounded; exceptional cases (P+P, P-P, P+O) hide in the addition formulas", "anchors": ["src/aggregates.rs:AggregatePublicKey::add", "src/aggregates.rs:AggregatePublicKey::add_aggregate", "src/aggregates.rs:AggregatePublicKey::from_public_keys", "amcl/src/bls381/ecp.rs:add"]}
{"id": "C08", "title": "Aggregate signature is the group sum", "statement": "Any sequence of AggregateSignature add/add_aggregate calls represents exactly the sum in the twist group of all signature points added.", "quantifier": "every history of add and add_aggregate calls over every signature point", "why_tests_cant": "histories are unbounded", "anchors": ["src/aggregates.rs:AggregateSignature::add", "src/aggregates.rs:AggregateSignature::add_aggregate", "amcl/src/bls381/ecp2.rs:add"]}
{"id": "C09", "title": "Aggregation order does not matter", "statement": "Adding the same multiset of public keys (or signatures) in any order and with any grouping gives equal aggregates (== is true) and identical compressed encodings.", "quantifier": "every list and every permutation of it, every split into sub-aggregates", "why_tests_cant": "all permutations of all lists", "anchors": ["src/aggregates.rs:AggregatePublicKey::add", "src/aggregates.rs:AggregateSignature::add", "src/aggregates.rs:AggregatePublicKey::as_bytes"]}
{"id": "C10", "title": "Aggregate key of secret keys is the key of the sum", "statement": "from_public_keys([pk(a1),...,pk(ak)]) represents (a1+...+ak)*G, and aggregating signatures of one message by a1..ak gives the signature (a1+...+ak)*H.", "quantifier": "every list of secret keys and every message point", "why_tests_cant": "unbounded lists", "anchors": ["src/aggregates.rs:AggregatePublicKey::from_public_keys", "src/aggregates.rs:AggregateSignature::add"]}
{"id": "C11", "title": "Aggregate verification accepts honest aggregates", "statement": "If every signer signs the same message and both the signatures and the public keys are aggregated, AggregateSignature::verify returns true when the summed key is not zero mod r; verify_multiple returns true for per-message aggregates when each per-message summed key is nonzero mod r.", "quantifier": "every list of signers, every list of 32-byte messages, every domain", "why_tests_cant": "unbounded numbers of signers and messages", "anchors": ["src/aggregates.rs:AggregateSignature::verify", "src/aggregates.rs:AggregateSignature::verify_multiple"]}
{"id": "C12", "title": "verify_multiple input discipline", "statement": "verify_multiple returns false (never panics) when the key list is empty or when the message buffer is not exactly 32 bytes per key; otherwise the i-th key is paired with exactly bytes 32i..32i+32 and the result is true iff the product of the pairings equals the pairing of the signature with the generator.", "quantifier": "every signature, message buffer, domain and key list", "why_tests_cant": "all lengths and all lists", "anchors": ["src/aggregates.rs:AggregateSignature::verify_multiple"]}
{"id": "C13", "title": "Decoders are total", "statement": "PublicKey/AggregatePublicKey/Signature/AggregateSignature::from_bytes and PublicKey::from_uncompressed_bytes return Ok or Err on every byte string; no panic, no arithmetic overflow, no out-of-bounds index and no endless loop.", "quantifier": "every byte string of every length", "why_tests_cant": "attacker-controlled input of 2^768 and more values", "anchors": ["src/amcl_utils.rs:decompress_g1", "src/amcl_utils.rs:decompress_g2", "src/keys.rs:PublicKey::from_uncompressed_bytes", "amcl/src/bls381/fp.rs:mul", "amcl/src/bls381/big.rs:rmod", "amcl/src/bls381/big.rs:jacobi"]}
{"id": "C14", "title": "Decoders accept only curve points", "statement": "Whenever a decoder returns Ok, the point lies on its curve (y^2=x^3+4 over F_p, or y^2=x^3+4(1+i) over F_p^2) or is the point at infinity.", "quantifier": "every byte string", "why_tests_cant": "an invalid-curve input is a needle in 2^384", "anchors": ["src/amcl_utils.rs:decompress_g1", "src/amcl_utils.rs:decompress_g2", "src/keys.rs:PublicKey::from_uncompressed_bytes", "amcl/src/bls381/ecp.rs:new_big", "amcl/src/bls381/ecp2.rs:new_fp2"]}
{"id": "C15", "title": "Exact acceptance set and error precedence of compressed public keys", "statement": "PublicKey::from_bytes returns: IncorrectSize iff length is not 48; else InvalidCFlag iff the top bit is clear; else, if the infinity bit is set, Ok(infinity) iff all other 382 bits are 0 and BadPoint otherwise; else Ok(P) with x(P) = the low 381 bits mod p iff x^3+4 is a nonzero square mod p, BadPoint otherwise.", "quantifier": "every byte string", "why_tests_cant": "branch conditions depend on quadratic residuosity of 2^381 values", "anchors": ["src/amcl_utils.rs:decompress_g1"]}
{"id": "C16", "title": "Exact acceptance set and error precedence of compressed signatures", "statement": "Signature::from_bytes returns: IncorrectSize iff length is not 96; else InvalidCFlag; else infinity rules; else Ok(P) iff x^3+4(1+i) has a square root found by the library, that is iff it is zero, or a square whose imaginary part is nonzero, or a real square of F_p; BadPoint otherwise. Curve points whose y is purely imaginary are therefore rejected.", "quantifier": "every byte string", "why_tests_cant": "branch conditions depend on residuosity in F_p^2", "anchors": ["src/amcl_utils.rs:decompress_g2", "amcl/src/bls381/fp2.rs:sqrt"]}
{"id": "C17", "title": "Compressed public key round trip", "statement": "For every finite curve point P=(x,y), from_bytes(as_bytes(P)) is (x,y) or (x,-y), and equals P iff the sign bit the encoder computes distinguishes y from -y or y is itself a square (the root the decoder computes first). The bit fails to distinguish exactly when y or p-y has leading bytes 0d 80, or leading bytes 0d 00 and 2y > p; then as_bytes(P) = as_bytes(-P) (for x nonzero). A concrete such point exists. Infinity round trips.", "quantifier": "every curve point", "why_tests_cant": "the failing points have density about 1/4000 and no test vector hits one", "anchors": ["src/amcl_utils.rs:compress_g1", "src/amcl_utils.rs:decompress_g1", "src/amcl_utils.rs:calc_a_flag"]}
{"id": "C18", "title": "Compressed signature round trip", "statement": "For every finite twist point P=(x,y): a purely imaginary y is refused on decoding; otherwise from_bytes(as_bytes(P)) is (x,y) or (x,-y). If y has a nonzero imaginary part it is P iff the sign bit separates the imaginary parts of y and -y, or the real part of y is a square. If y is real the encoded bit s depends on the internal representation of zero, and the result is P iff (s = 0 iff y is a square). For nonzero components P and -P have equal encodings exactly for the exceptional imaginary parts. Infinity round trips.", "quantifier": "every twist point", "why_tests_cant": "same as above over F_p^2", "anchors": ["src/amcl_utils.rs:compress_g2", "src/amcl_utils.rs:decompress_g2", "src/amcl_utils.rs:calc_a_flag"]}
{"id": "C19", "title": "Meaning of the sign bit", "statement": "The sign bit in an encoding equals the documented floor(2y/q) except exactly when y is in the two explicitly listed intervals (top byte 0x0d with second byte 0x80, or with second byte 0x00 and 2y>q); in all other cases it is 1 for exactly one of y and q-y.", "quantifier": "every y in 0..q", "why_tests_cant": "2^381 values of y; the wrong ones form a thin slice", "anchors": ["src/amcl_utils.rs:calc_a_flag"]}
{"id": "C20", "title": "Uncompressed public key round trip", "statement": "from_uncompressed_bytes(as_uncompressed_bytes(P)) equals P for every point P of the curve including infinity.", "quantifier": "every curve point in every projective representation", "why_tests_cant": "all points, all internal representations", "anchors": ["src/keys.rs:PublicKey::as_uncompressed_bytes", "src/keys.rs:PublicKey::from_uncompressed_bytes"]}
{"id": "C21", "title": "Exact acceptance set of uncompressed public keys", "statement": "from_uncompressed_bytes(b) is IncorrectSize iff |b| is not 96; infinity iff all 96 bytes are zero; else Ok of (x mod p, y mod p) iff y^2=x^3+4 mod p, BadPoint otherwise; values >= p are accepted and reduced, so several byte strings decode to the same key.", "quantifier": "every byte string", "why_tests_cant": "2^768 inputs", "anchors": ["src/keys.rs:PublicKey::from_uncompressed_bytes", "amcl/src/bls381/ecp.rs:new_bigs"]}
{"id": "C22", "title": "Encodings are canonical for canonical inputs and malleable otherwise", "statement": "Two different 48-byte strings decode to the same public key iff they agree in the sign decision and their 381-bit x fields are congruent modulo p; strings whose x field is below p and nonzero re-encode to themselves unless the sign bit is in the ambiguous slice. Non-canonical strings (x field >= p) are accepted and re-encode to a different string, except x field = p.", "quantifier": "every pair of byte strings", "why_tests_cant": "pairs out of 2^768", "anchors": ["src/amcl_utils.rs:decompress_g1", "src/amcl_utils.rs:compress_g1"]}
{"id": "C23", "title": "Equality is equality of group elements", "statement": "== on PublicKey, AggregatePublicKey, Signature and AggregateSignature is true iff the two values represent the same point, whatever projective coordinates, excess counters or limb representations they carry; == on SecretKey is true iff the integers are equal.", "quantifier": "every pair of reachable values", "why_tests_cant": "representations are unbounded in number", "anchors": ["src/g1.rs:PartialEq for G1Point", "src/g2.rs:PartialEq for G2Point", "src/keys.rs:PartialEq for SecretKey", "amcl/src/bls381/ecp.rs:equals", "amcl/src/bls381/ecp2.rs:equals"]}
{"id": "C24", "title": "Encodings depend only on the group element", "statement": "as_bytes and as_uncompressed_bytes return identical bytes for values that compare equal, provided the x coordinate components are nonzero (for zero components the bytes may be those of p instead of 0, when the value was decoded from a non-canonical string).", "quantifier": "every pair of representations of the same point", "why_tests_cant": "needs every internal representation", "anchors": ["src/amcl_utils.rs:compress_g1", "src/amcl_utils.rs:compress_g2", "amcl/src/bls381/ecp.rs:affine", "amcl/src/bls381/fp.rs:redc"]}
{"id": "C25", "title": "Cofactor multiplication clears the cofactor", "statement": "multiply_cofactor(P) is h2*P with h2 the published G2 cofactor, and the result has order dividing r, for every point P of the twist (the twist has exactly h2*r points).", "quantifier": "every point of the twist group", "why_tests_cant": "group has about 2^762 elements", "anchors": ["src/amcl_utils.rs:multiply_cofactor"]}
{"id": "C26", "title": "Hash to G2 lands in the prime order subgroup", "statement": "hash_on_g2(msg,d) terminates and yields a point on the twist of order dividing r, computed from the first x = x0 + k (k = 0,1,2,...) for which the curve equation is solvable by the library.", "quantifier": "every message, domain and 32-byte-output hash function", "why_tests_cant": "termination and order must hold for all hash values", "anchors": ["src/amcl_utils.rs:hash_on_g2", "src/amcl_utils.rs:map_to_g2"]}
{"id": "C27", "title": "Choice of the y coordinate in hashing", "statement": "Before cofactor multiplication map_to_g2 uses, of the two candidate points (x,y),(x,-y), the one whose y is lexicographically larger (imaginary part first), whenever y has a nonzero imaginary part; hence the hash does not depend on which square root the field code returns.", "quantifier": "every pair of 48-byte strings", "why_tests_cant": "every x value", "anchors": ["src/amcl_utils.rs:map_to_g2", "src/amcl_utils.rs:cmp_fp2"]}
{"id": "C28", "title": "Domain separation of hash inputs", "statement": "The byte strings fed to the hash for (msg,d,part) and (msg',d',part') are equal iff msg=msg', d=d' and part=part'.", "quantifier": "every pair of messages, domains and parts", "why_tests_cant": "unbounded messages", "anchors": ["src/amcl_utils.rs:hash_on_g2"]}
{"id": "C29", "title": "Random secret keys are in range", "statement": "SecretKey::random always terminates and returns a canonical integer in 0..r-1 whatever bytes the supplied Rng produces, it consumes 256 bytes of it, and its encoding starts with 16 zero bytes.", "quantifier": "every behaviour of the supplied random number generator", "why_tests_cant": "all 2^2048 seeds", "anchors": ["src/keys.rs:SecretKey::random", "src/rng.rs:get_seeded_rng", "amcl/src/bls381/big.rs:randomnum", "amcl/src/bls381/dbig.rs:dmod", "amcl/src/rand.rs"]}
{"id": "C30", "title": "Field arithmetic never overflows and is exact", "statement": "Every public operation on points keeps all 64-bit limbs, 128-bit accumulators and excess counters in range (no debug panic, and release and debug builds agree), and the field operations compute exactly addition, subtraction, multiplication, squaring, negation, halving, inversion and square root modulo p.", "quantifier": "every reachable sequence of field operations", "why_tests_cant": "limb overflow occurs on astronomically rare carries", "anchors": ["amcl/src/bls381/fp.rs", "amcl/src/bls381/big.rs:mul", "amcl/src/bls381/big.rs:monty", "amcl/src/bls381/fp2.rs:mul"]}
{"id": "C31", "title": "Pairing computation is total and representation independent", "statement": "ate_pairing never panics on any points reachable through the API, its Miller loop and final exponentiation compute the textbook formulas in the tower F_p^2, F_p^4, F_p^12, its value depends only on the affine coordinates of its arguments, and on the subgroups of order r it is a bilinear non-degenerate pairing.", "quantifier": "every pair of points", "why_tests_cant": "2^1143 point pairs", "anchors": ["amcl/src/bls381/pair.rs:ate", "amcl/src/bls381/pair.rs:fexp", "amcl/src/bls381/fp12.rs", "amcl/src/bls381/fp4.rs", "src/amcl_utils.rs:ate_pairing"]}
{"id": "C32", "title": "Pairing of the point at infinity", "statement": "ate_pairing(infinity, Q) is 1 for every finite Q with nonzero abscissa, in particular for every Q of order r, and 0 for the two points (0,+-2) of order 3; hence verification of the infinity signature under a finite key of order r succeeds only when the message point is infinity.", "quantifier": "every Q", "why_tests_cant": "all points Q", "anchors": ["amcl/src/bls381/pair.rs:ate", "amcl/src/bls381/pair.rs:fexp"]}
{"id": "C33", "title": "Quadratic residue test and square root", "statement": "The Jacobi symbol routine returns the Legendre symbol for every field element and terminates; sqrt returns a root whenever the symbol is 1; the F_p^2 square root returns true only with a correct root and returns false exactly for non-squares and for real non-residues.", "quantifier": "every field element", "why_tests_cant": "2^381 (2^762) inputs", "anchors": ["amcl/src/bls381/big.rs:jacobi", "amcl/src/bls381/fp.rs:sqrt", "amcl/src/bls381/fp2.rs:sqrt"]}
{"id": "C34", "title": "Decoding does not check the subgroup", "statement": "There are byte strings accepted by PublicKey::from_bytes (and Signature::from_bytes) whose point does not have order dividing r; an acceptance by a decoder therefore gives curve membership only.", "quantifier": "existence, with the acceptance characterisation for all inputs", "why_tests_cant": "tests only use honest points", "anchors": ["src/amcl_utils.rs:decompress_g1", "src/amcl_utils.rs:decompress_g2"]}
{"id": "C35", "title": "Internal SHA-256 is SHA-256", "statement": "HASH256 (used to distil the seed and the pool) computes FIPS 180-4 SHA-256 of the processed bytes for every message of at most 2^29 - 9 bytes; for every longer message the 32-bit bit counter overflows (debug panic).", "quantifier": "every message", "why_tests_cant": "unbounded messages, block boundary padding cases", "anchors": ["amcl/src/hash256.rs"]}
{"id": "C36", "title": "Random keys are the specified function of the entropy", "statement": "SecretKey::random draws 256 bytes, hashes them with SHA-256, seeds the (21,6) subtract-with-borrow generator with the eight digest words, hashes its output 128 bytes at a time into 32-byte pools, takes 510 bits (least significant bit of each byte first) and reduces them modulo r; nothing else influences the key.", "quantifier": "every entropy string", "why_tests_cant": "all 2^2048 entropy strings", "anchors": ["src/keys.rs:SecretKey::random", "src/rng.rs:get_seeded_rng", "amcl/src/rand.rs:sbrand", "amcl/src/rand.rs:sirand", "amcl/src/rand.rs:fill_pool", "amcl/src/bls381/big.rs:randomnum"]}
{"id": "C37", "title": "No call of the public interface panics", "statement": "For all values that can be made by calls of the public interface, every public function returns: no panic, no out-of-range access, no overflow of a 64- or 128-bit number and no endless loop. The only exceptions are new_hashed and verify_hashed with a hash shorter than 48 bytes.", "quantifier": "every value reachable by any sequence of calls, every argument", "why_tests_cant": "unbounded call sequences and rare carries", "anchors": ["src/keys.rs", "src/signature.rs", "src/aggregates.rs", "src/amcl_utils.rs"]}
{"id": "C38", "title": "Keys and signatures sent in compressed form", "statement": "Sign, derive the key, encode both with as_bytes, decode both with from_bytes and verify: the key always decodes; the signature decodes unless the real part of its ordinate is 0; the result of verify is true exactly if the two round trips both kept the point or both negated it. If the sign bits distinguish both ordinates from their opposites the result is true.", "quantifier": "every hash function, message, domain and secret key that is not a multiple of r, finite message point", "why_tests_cant": "the failing ordinates are too rare to meet by sampling", "anchors": ["src/signature.rs:Signature::verify", "src/amcl_utils.rs:compress_g1", "src/amcl_utils.rs:decompress_g2"]}
{"id": "C39", "title": "Rogue key", "statement": "For every victim key and every attacker secret key that is not a multiple of r there are 96 bytes that PublicKey::from_uncompressed_bytes accepts, such that the aggregate of the two keys accepts the attacker's own signature of every message as an aggregate signature: aggregation needs a proof of possession that the crate does not check.", "quantifier": "every victim key, attacker key, hash function, message and domain", "why_tests_cant": "all keys and all messages", "anchors": ["src/aggregates.rs:AggregatePublicKey::from_public_keys", "src/aggregates.rs:AggregateSignature::verify", "src/keys.rs:PublicKey::from_uncompressed_bytes"]}
{"id": "C40", "title": "The key at infinity", "statement": "A public key or aggregate key that is the point at infinity, in any representation, accepts the infinity signature for every message whose message point is finite and no other signature of order dividing r; in particular a new AggregateSignature is accepted for a new AggregatePublicKey, and the encodings c000..00 of key and signature are accepted for every such message.", "quantifier": "every hash function, message, domain, signature of order dividing r and representation of infinity", "why_tests_cant": "all messages and all representations", "anchors": ["src/signature.rs:Signature::verify", "src/aggregates.rs:AggregateSignature::verify", "amcl/src/bls381/pair.rs:ate"]}
{"id": "C41", "title": "Big integer arithmetic outside the field layer", "statement": "div, DBIG::div, div3, mod2m, smul, pxmul, plus, imul, cswap, modmul, modsqr, modneg, powmod, invmodp and invmod256 return exactly the integer their name says, without overflow, and their loops end; invmodp with an odd modulus never ends precisely when the argument has no inverse.", "quantifier": "every pair of normalised numbers below 2^403 (or 2^406), every modulus, every exponent", "why_tests_cant": "the range has more than 2^400 values; the quotient loops depend on every bit; non-termination is not observable by a test", "anchors": ["amcl/src/bls381/big.rs:div", "amcl/src/bls381/big.rs:smul", "amcl/src/bls381/big.rs:invmodp", "amcl/src/bls381/big.rs:modmul", "amcl/src/bls381/big.rs:powmod", "amcl/src/bls381/dbig.rs:div"]}
{"id": "C42", "title": "Joint multiplication", "statement": "ECP::mul2, ECP2::mul4 and FP12::pow4 return the exact linear combination e*P+f*Q, the sum of four multiples, and the product of four powers (in the cyclotomic subgroup), without panic or overflow, for points of any order and zero, even and odd scalars.", "quantifier": "all points of the curve or twist in every representation, all elements of the cyclotomic subgroup, all scalars below 2^402 (2^404)", "why_tests_cant": "window recoding and the correction step for even scalars depend on every bit; carries in the recoding and coincidences of table entries with the accumulator are not hit by samples", "anchors": ["amcl/src/bls381/ecp.rs:mul2", "amcl/src/bls381/ecp2.rs:mul4", "amcl/src/bls381/fp12.rs:pow4"]}
{"id": "C43", "title": "Multiplication in G1 with the endomorphism", "statement": "g1mul returns e*P for every point of order dividing r; its scalar decomposition glv is congruent to the scalar and short. The points of order dividing r are exactly those at which g1mul is right for all scalars: with the scalar x^2 it is wrong at every other point of the curve.", "quantifier": "all points of the curve in every representation, all scalars below 2^403 (the decomposition itself below 2^382)", "why_tests_cant": "the choice between a scalar and its negative and the decomposition are exact only for all scalars; a wrong endomorphism constant or sign shows only for particular ranges", "anchors": ["amcl/src/bls381/pair.rs:glv", "amcl/src/bls381/pair.rs:g1mul", "amcl/src/bls381/ecp.rs:mulx"]}
{"id": "C44", "title": "Multiplication in G2 with the Frobenius endomorphism", "statement": "frob is the twisted Frobenius endomorphism psi, which satisfies psi^2 - (u+1) psi + p = 0 at every point and acts as multiplication by the curve parameter u exactly at the points of order dividing r; the decomposition gs is congruent to the scalar; g2mul returns e*P for all scalars at the points of order dividing r and, with the scalar |u|, a wrong point at every other point of the twist.", "quantifier": "all points of the twist, all scalars below 2^403", "why_tests_cant": "the eigenvalue relation is a statement about a group of order r; a sample of points or scalars does not determine it", "anchors": ["amcl/src/bls381/pair.rs:gs", "amcl/src/bls381/pair.rs:g2mul", "amcl/src/bls381/ecp2.rs:frob"]}
{"id": "C45", "title": "Powers of pairing values", "statement": "gtpow returns the exact power for every element of order dividing r, and multiplying either argument of the pairing (g1mul, g2mul) or raising its value (gtpow) gives identical limbs. On the cyclotomic subgroup the elements of order dividing r are exactly those at which gtpow is right for all exponents.", "quantifier": "all elements of order dividing r, all exponents below 2^403, all points of order dividing r", "why_tests_cant": "equality of limbs along three different routes for all scalars is a universally quantified statement over a 2^403 range", "anchors": ["amcl/src/bls381/pair.rs:gtpow", "amcl/src/bls381/fp12.rs:pow4", "amcl/src/bls381/fp12.rs:frob"]}
{"id": "C46", "title": "The 64-bit hashes are SHA-512 and SHA-384", "statement": "One HASH512 object fed with any sequence of messages returns the SHA-512 values of FIPS 180-4 without a panic; HASH384 does the same for SHA-384 in a release build. In a debug build any digest HASH384 returns is right, but the unchecked + of its message schedule overflows and panics on ordinary messages.", "quantifier": "all sequences of messages of at most 2^61 - 17 bytes each", "why_tests_cant": "a padding or carry fault shows only at particular lengths and words; the constants are compared with roots of primes, not with a copy of the table", "anchors": ["amcl/src/hash512.rs", "amcl/src/hash384.rs"]}
{"id": "C47", "title": "The double pairing", "statement": "fexp of ate2 returns, without panic or overflow, the canonical form of the product of the two values of ate_pairing; for points of order dividing r this is the product of the two pairings, and it is 1 at (Q, g), (-Q', g') exactly if the pairings at (Q, g) and (Q', g') are equal.", "quantifier": "all points of the twist in affine form, all points of the curve in any representation", "why_tests_cant": "the shared accumulator must give the product for every pair of arguments, including points outside the subgroup and infinity; tests show single pairs", "anchors": ["amcl/src/bls381/pair.rs:ate2", "amcl/src/bls381/pair.rs:fexp"]}
{"id": "C48", "title": "AMCL's own encoding of points of the first curve", "statement": "ECP::frombytes returns a given finite point exactly for the byte strings that start with one of the two SEC 1 strings of that point, infinity for all other strings, and panics exactly for too short ones; tobytes writes these strings, so that finite points survive transport, except representations of (0, ±2) with nonzero limbs for the abscissa. Infinity is not encoded: its compressed string decodes to one of the finite points (0, ±2).", "quantifier": "all byte strings, all representations of all points", "why_tests_cant": "exactness over all strings, and the exceptions occur for single points in special representations", "anchors": ["amcl/src/bls381/ecp.rs:frombytes", "amcl/src/bls381/ecp.rs:tobytes", "amcl/src/bls381/ecp.rs:new_bigint", "amcl/src/bls381/ecp.rs:gets"]}
{"id": "C49", "title": "Mapping strings to the first curve; the ladder", "statement": "ECP::mapit ends for every string of at least 48 bytes and returns the point over the first usable abscissa with even ordinate times the cofactor, which has order r; cfp takes every point into the subgroup; pinmul multiplies by the low bts bits of its argument for bts up to 32 and panics above.", "quantifier": "all byte strings, all points of any order in any representation, all i32 multipliers", "why_tests_cant": "termination of the search and membership in the subgroup for all inputs", "anchors": ["amcl/src/bls381/ecp.rs:mapit", "amcl/src/bls381/ecp.rs:cfp", "amcl/src/bls381/ecp.rs:pinmul", "amcl/src/bls381/ecp.rs:cswap"]}
{"id": "C50", "title": "AMCL's own encoding of points of the twist", "statement": "ECP2::frombytes takes four blocks of 48 bytes as coordinates modulo p and returns the point with these coordinates if they are on the curve and infinity otherwise; it panics exactly for strings of fewer than 192 bytes. tobytes writes such a string, so every point in every representation, infinity included, survives transport. The string is not unique: adding p to a coordinate goes unnoticed.", "quantifier": "all byte strings, all representations of all points of the twist", "why_tests_cant": "exactness over all strings; that infinity never decodes to a finite point depends on 4(1+i) not being a square", "anchors": ["amcl/src/bls381/ecp2.rs:frombytes", "amcl/src/bls381/ecp2.rs:tobytes", "amcl/src/bls381/ecp2.rs:new_fp2s"]}
{"id": "C51", "title": "AMCL's map from strings to the twist", "statement": "ECP2::mapit ends for every string of at least 48 bytes without panic or overflow and returns the point over the first usable abscissa 1+xi, 1+(x+1)i, ..., with a square as real part of the ordinate, multiplied by (u^2-u-1)+(u-1)psi+2psi^2 with the curve parameter u and the twisted Frobenius map psi. This combination is multiplication by 3(u^2-1) times the published cofactor at every point of the twist, so the result always lies in the subgroup of order r.", "quantifier": "all byte strings", "why_tests_cant": "termination of the search and absence of overflow for all inputs; the combination of scalar multiples and Frobenius maps is exact for all points, of any order", "anchors": ["amcl/src/bls381/ecp2.rs:mapit", "amcl/src/bls381/ecp2.rs:frob", "amcl/src/bls381/ecp2.rs:new_fp2"]}
{"id": "C52", "title": "Compressed powers", "statement": "FP12::trace computes the trace to Fp4. FP4::xtr_pow maps the trace of an element of the cyclotomic subgroup to the trace of its power for every exponent from 1 to 2^406, xtr_pow2 the traces of y, z, z/y, z/y^2 to the trace of y^a z^b for exponents from 1 to 2^403, and FP12::compow computes the trace of z^e for elements of order r and exponents that are no multiples of p mod r, without overflow, in agreement with gtpow. For the exponent 0 compow computes the trace of z^(2^350) instead of 3; for positive multiples of p mod r it never ends. Two elements of the cyclotomic subgroup have the same trace exactly if they are conjugate over Fp4.", "quantifier": "all elements of the cyclotomic subgroup, all exponents below 2^403", "why_tests_cant": "termination of a gcd-like loop and the bound on the lazy reduction over thousands of steps; the bad exponents are one in 2^255", "anchors": ["amcl/src/bls381/fp4.rs:xtr_a", "amcl/src/bls381/fp4.rs:xtr_d", "amcl/src/bls381/fp4.rs:xtr_pow", "amcl/src/bls381/fp4.rs:xtr_pow2", "amcl/src/bls381/fp12.rs:trace", "amcl/src/bls381/fp12.rs:compow"]}
{"id": "C53", "title": "Powers by small exponents", "statement": "FP12::pinpow raises an element of the cyclotomic subgroup to the power given by the low bts bits of the exponent, for bts up to 32, negative exponents included, and panics above.", "quantifier": "all elements of the cyclotomic subgroup, all i32 exponents", "why_tests_cant": "2^32 exponents and all field elements", "anchors": ["amcl/src/bls381/fp12.rs:pinpow", "amcl/src/bls381/fp12.rs:usqr"]}
{"id": "C54", "title": "Strings of pairing values", "statement": "FP12::frombytes decodes every string of at least 576 bytes to the element with the given coordinates modulo p and panics on shorter ones; tobytes followed by frombytes gives an element that equals the original, for every representation; for reduced elements the string is the standard one and determines and is determined by the element.", "quantifier": "all byte strings, all elements of F_p^12 and all representations the arithmetic hands on", "why_tests_cant": "2^4608 strings; the exceptions (zero written as p) need particular representations", "anchors": ["amcl/src/bls381/fp12.rs:frombytes", "amcl/src/bls381/fp12.rs:tobytes"]}
{"id": "C55", "title": "M-Pin authentication", "statement": "server_2 accepts a proof (R, V) for challenge y exactly if the cofactor kills V + s(yA + R), whatever points the client sends, and otherwise answers BAD_PIN; so points of order dividing the cofactor can be added unnoticed. A full honest run (hash_id, get_server_secret, get_client_secret, extract_pin, client_1, server_1, client_2, server_2), with or without date and permit, ends without panic; the server accepts if the PINs agree modulo 10000, otherwise it refuses and hands out strings e, f with e = f^(difference of the PINs). restore_factor undoes extract_factor; get_y is the hash modulo r; with a date and no permit client_1 adds the PIN twice.", "quantifier": "all identities up to 2^29 - 21 bytes, hash functions, dates, PINs, master secrets, random numbers and challenges of 48 bytes that avoid infinity; all points sent by a client", "why_tests_cant": "the scalars and strings range over sets of size 2^382 and more; a test fixes one identity and cannot show that wrong PINs are always refused or what exactly a forged pair must satisfy", "anchors": ["amcl/src/bls381/mpin.rs:server_2", "amcl/src/bls381/mpin.rs:client_1", "amcl/src/bls381/mpin.rs:client_2", "amcl/src/bls381/mpin.rs:server_1", "amcl/src/bls381/mpin.rs:extract_factor", "amcl/src/bls381/mpin.rs:restore_factor", "amcl/src/bls381/mpin.rs:hashit", "amcl/src/bls381/mpin.rs:get_client_permit"]}
{"id": "C56", "title": "Common keys of M-Pin", "statement": "client_key computes the first 16 bytes of the hash of the trace of (g1 g2^pin)^(rho+h) and of the point xW; server_key those of the trace of e(S, Z+hA) and of wU. In a full run (hash_id, secrets, extract_pin, client_1, server_1, precompute, get_g1_multiple twice, both keys) no step panics or fails, and the two strings hashed are equal if and only if the PINs agree, or the power for the wrong PIN is a conjugate of the right one (two explicit congruences modulo r). client_key reduces the PIN modulo 2^14, not 10000, does not end if rho+h modulo r is a positive multiple of p mod r, and computes the key of the power 2^350 where r divides rho+h. hash_all hashes exactly the transcripts of 484 bytes and panics on longer ones.", "quantifier": "all identities, hash functions, PINs, secrets, random numbers and transcript hashes of 48 bytes that avoid infinity and the multiples of p mod r; all points Z of the curve", "why_tests_cant": "agreement is an identity between two different computations (trace exponentiation in Fp4 and a pairing) over scalars of 255 bits; disagreement for wrong PINs is a statement about conjugates that no sample shows", "anchors": ["amcl/src/bls381/mpin.rs:client_key", "amcl/src/bls381/mpin.rs:server_key", "amcl/src/bls381/mpin.rs:precompute", "amcl/src/bls381/mpin.rs:get_g1_multiple", "amcl/src/bls381/mpin.rs:hash_all", "amcl/src/bls381/mpin.rs:hash"]}
{"id": "C57", "title": "M-Pin's search for the error of a PIN", "statement": "kangaroo ends without panic or overflow and computes exactly the outcome of the search by two kangaroos (tame: 200 jumps from 1; wild: at most 800 jumps from e; jumps of 2^i with i from the last 20 bits of the first coordinate). An answer n other than 0 after a meeting of the first kind satisfies e f^n = 1; after a meeting of the second kind it never does. After a failed run of M-Pin the answer is 0 or the difference of the two PINs, unless the trap is at a distance below 10000.", "quantifier": "all strings e and all strings f of elements of the cyclotomic subgroup; all runs of C55", "why_tests_cant": "the search depends on pseudo-random paths; soundness for all inputs and the fault of the second kind of meeting are not visible on samples", "anchors": ["amcl/src/bls381/mpin.rs:kangaroo", "amcl/src/bls381/fp12.rs:equals", "amcl/src/bls381/fp12.rs:usqr"]}
{"id": "C58", "title": "Points as pairs of numbers in M-Pin", "statement": "Every string of 97 bytes without the third bit in its first byte stands for exactly one point, the sum of two points found by counting up from two numbers to an abscissa on the curve. decoding computes the uncompressed string of that point if it is finite, and refuses the third bit. encoding refuses coordinates off the curve; otherwise, with a seeded generator, it computes the pair fixed by the next 98 bytes of the generator, unless the difference of the point and the first random point is infinity or has abscissa 0. What it writes, decoding turns back into the string of the point. The numbers that stand for a point of abscissa x other than 0 are exactly those above the next lower abscissa on the curve, up to x.", "quantifier": "all strings of 97 bytes; all entropy strings and positions of the generator; all points of the curve of abscissa other than 0, of whatever order", "why_tests_cant": "the round trip relies on two searches, up and down, to agree for every abscissa and random choice; tests see a few", "anchors": ["amcl/src/bls381/mpin.rs:encoding", "amcl/src/bls381/mpin.rs:decoding", "amcl/src/bls381/mpin.rs:emap", "amcl/src/bls381/mpin.rs:unmap", "amcl/src/bls381/big.rs:randomnum"]}
{"id": "C59", "title": "Arithmetic of the extension fields of degree 4 and 12", "statement": "In the fields with p^4 and p^12 elements, every operation ends without overflow and computes exactly the field operation, within stated bounds on limbs and excess: sums, products, squares, inverses, conjugates, halves, quotients by 1+i and by V, products with elements of subfields, comparisons, Frobenius maps and powers; the short squaring is right for elements whose order divides p^4-p^2+1. FP4::sqrt, outside the subfield, answers true only with a correct root, and exactly if FP2::sqrt finds roots of the norm and of one of the two halves. In the subfield it always answers true, with a root if FP2::sqrt finds one, and with 0 otherwise.", "quantifier": "all representations with normalised limbs and excess up to 2^20 (2^18 in degree 12); all exponents with limbs up to 2^62", "why_tests_cant": "limb and excess bounds over all representations, and a root routine with wrong answers on a thin set of inputs, need a proof", "anchors": ["amcl/src/bls381/fp4.rs:sqrt", "amcl/src/bls381/fp4.rs:pow", "amcl/src/bls381/fp4.rs:div_2i", "amcl/src/bls381/fp2.rs:div_ip", "amcl/src/bls381/fp12.rs:mul", "amcl/src/bls381/fp12.rs:usqr"]}
{"id": "C60", "title": "SHA-3 and SHAKE", "statement": "transform is the permutation KECCAK-f[1600] of FIPS 202. Whatever the object was used for before, init, one process call for each byte of the message and hash write the SHA3 digest of 8*olen bits to the front of the buffer and leave the rest as it is; shake does the same with the SHAKE output of any length. With an output length of 0 shake writes one byte all the same. Parameters of 100 and more panic.", "quantifier": "all messages shorter than 2^64 - 200 bytes, all length parameters, all buffers", "why_tests_cant": "test vectors cover a few message lengths; the padding has a special case for one length in 136, and output over several blocks is another loop", "anchors": ["amcl/src/sha3.rs:transform", "amcl/src/sha3.rs:process", "amcl/src/sha3.rs:squeeze", "amcl/src/sha3.rs:hash", "amcl/src/sha3.rs:shake", "amcl/src/sha3.rs:init"]}
{"id": "C61", "title": "AES: the block cipher", "statement": "After init with a key of four or six words, ecb_encrypt is the encryption and ecb_decrypt the decryption of AES-128 and AES-192 (FIPS 197), for every key, block and earlier state of the object. With eight words both use a key expansion that lacks the SubWord step of the standard: for every key the word 12 is wrong in all four bytes, and the standard's example comes out wrong. For all three lengths decryption and encryption are inverse to each other. init refuses a key if and only if nkey/4 is not 4, 6 or 8, and panics if there are fewer bytes than 4*(nkey/4).", "quantifier": "all keys, all key lengths, all blocks, all earlier states of the object", "why_tests_cant": "the tables have 256 entries that a few vectors do not all reach, and a round trip test with 32-byte keys passes although the cipher is not AES-256", "anchors": ["amcl/src/aes.rs:init", "amcl/src/aes.rs:ecb_encrypt", "amcl/src/aes.rs:ecb_decrypt", "amcl/src/aes.rs:subbyte", "amcl/src/aes.rs:invmixcol", "amcl/src/aes.rs:bmul"]}
{"id": "C62", "title": "AES: modes of operation", "statement": "Called once for each block or segment, encrypt and decrypt compute the modes ECB, CBC, CFB (segments of 1, 2, 4 bytes), OFB and CTR (1, 2, 4, 8, 16 bytes) of SP 800-38A with the block cipher of the object, and leave the bytes of the buffer behind the segment as they are. decrypt from the same state takes back encrypt in every mode and build. A debug build panics in the CTR modes when the first byte of the counter is 255. Other values of the mode leave the plaintext. end clears exactly the words that the last init wrote.", "quantifier": "all messages of any number of buffers, all keys, all initialization vectors, all modes, debug and release builds", "why_tests_cant": "the carry of the counter and the shift register over many segments are outside short vectors; a debug test with a short message never reaches the panic", "anchors": ["amcl/src/aes.rs:encrypt", "amcl/src/aes.rs:decrypt", "amcl/src/aes.rs:increment", "amcl/src/aes.rs:reset", "amcl/src/aes.rs:getreg", "amcl/src/aes.rs:end"]}
{"id": "C63", "title": "GCM", "statement": "In a build without overflow checks, init, add_header, add_plain or add_cipher, and finish compute the ciphertext, the plaintext and the tag of SP 800-38D with the block cipher that AES::init sets up, for every initialization vector, header and text in pieces of which all but the last are made of whole blocks; decryption takes back encryption with the same tag. For keys of 16 and 24 bytes the cipher is AES-128 and AES-192; for 32 bytes it is not AES-256; for all other lengths it is independent of the key. A build with checks panics in gf2mul unless the whole hash state is 1 bits. Calls out of order are refused without effect. hex2bytes decodes pairs of hexadecimal digits.", "quantifier": "all keys, initialization vectors of any length, headers and texts of any length and in any pieces, any buffers", "why_tests_cant": "test vectors use one call for each part, short lengths and valid keys; the 32-bit counter wrap, the bit lengths above 2^29 bytes and the debug panic are not reached", "anchors": ["amcl/src/gcm.rs:init", "amcl/src/gcm.rs:add_header", "amcl/src/gcm.rs:add_plain", "amcl/src/gcm.rs:add_cipher", "amcl/src/gcm.rs:finish", "amcl/src/gcm.rs:gf2mul", "amcl/src/gcm.rs:hex2bytes"]}
{"id": "C64", "title": "Number theoretic transform of NewHope", "statement": "For coefficients in [0, 758000] ntt returns without overflow 2^32 times the values at 1024 different roots of X^1024+1 in Z_q, with results at most 258069; for inputs in [0, 24578] intt returns the polynomial with coefficients below q that has the given values divided by 2^32. The two are inverse up to reduction, and ntt, poly_mul, intt compute the product modulo X^1024+1.", "quantifier": "all arrays of 1024 coefficients within the bounds", "why_tests_cant": "a wrong root or a missed reduction shows only for some coefficients, and the overflow bounds need the worst case of ten layers", "anchors": ["amcl/src/nhs.rs:ntt", "amcl/src/nhs.rs:intt", "amcl/src/nhs.rs:poly_mul", "amcl/src/nhs.rs:poly_hard_reduce", "amcl/src/nhs.rs:redc"]}
{"id": "C65", "title": "Encodings of NewHope", "statement": "nhs_pack writes the little-endian bytes of the number with 14-bit digits, nhs_unpack reads the digits of any bytes, and the two are inverse; compress writes round(8x/q) mod 8 for x modulo q and decompress round(qb/8), which is within 768 of x modulo q; encode repeats each key bit at four places and decode finds it whenever the errors at the four places sum to at most 12287 in absolute value, which is sharp.", "quantifier": "all coefficients within the bounds, all byte strings, all error vectors", "why_tests_cant": "the values near the rounding and voting boundaries are rare in random exchanges", "anchors": ["amcl/src/nhs.rs:nhs_pack", "amcl/src/nhs.rs:nhs_unpack", "amcl/src/nhs.rs:compress", "amcl/src/nhs.rs:decompress", "amcl/src/nhs.rs:encode", "amcl/src/nhs.rs:decode"]}
{"id": "C66", "title": "NewHope key exchange", "statement": "With a seeded generator server_1 writes the seed and the values of as+e, client for any message of 1824 bytes writes the values of as'+e' and the compressed bs'+e''+encode(v) and the key SHA3-256(v), and server_2 for any secret and answer writes SHA3-256 of the decoded c-us; they consume 8224 and 12320 bytes of the generator and panic exactly if a slice is too short. The keys agree if the sum of |e s' - e' s + e''| over the four places of every bit is at most 9215.", "quantifier": "all seeds and positions of the generators, all received bytes, all buffers", "why_tests_cant": "tests exchange honest messages with a few seeds; bytes that are not reduced coefficients, worst case noise and buffer lengths are not covered", "anchors": ["amcl/src/nhs.rs:server_1", "amcl/src/nhs.rs:client", "amcl/src/nhs.rs:server_2", "amcl/src/nhs.rs:parse", "amcl/src/nhs.rs:error"]}
{"id": "C67", "title": "HMAC and key derivation of ecdh.rs", "statement": "hmac writes the first olen bytes of HMAC (with zeros in front if olen exceeds the hash length) and refuses tags of less than 4 bytes; kdf2 is KDF2; kdf1 is KDF1 except that the first block is the hash of Z alone; pbkdf2 is PBKDF2 with SHA-512 for at most 32 bytes, with one iteration with SHA-256 for every length and with every hash for at most 32 bytes; for other arguments its value is stated, and it differs from PBKDF2 for an example; salts over 32 bytes panic.", "quantifier": "all messages, keys, passwords, salts, lengths and buffers, the three hash functions", "why_tests_cant": "test vectors fix a few lengths; the errors depend on the hash length, the number of iterations and the key length", "anchors": ["amcl/src/secp256k1/ecdh.rs:hmac", "amcl/src/secp256k1/ecdh.rs:kdf1", "amcl/src/secp256k1/ecdh.rs:kdf2", "amcl/src/secp256k1/ecdh.rs:pbkdf2", "amcl/src/secp256k1/ecdh.rs:hashit"]}
{"id": "C68", "title": "CBC encryption of ecdh.rs", "statement": "For keys of 4, 6 or 8 words cbc_iv0_encrypt returns CBC of the message with PKCS #7 padding and IV 0; cbc_iv0_decrypt refuses strings that are empty, incomplete or badly padded, and otherwise returns the decryption without its last block followed by 16-n bytes n for a padding of n bytes; so decryption inverts encryption if and only if the bytes of the message after its complete blocks have the value of the padding; with keys of other lengths the ciphertext does not depend on the key.", "quantifier": "all keys and all byte strings", "why_tests_cant": "the repository has no test of these functions; a test with a message of complete blocks passes", "anchors": ["amcl/src/secp256k1/ecdh.rs:cbc_iv0_encrypt", "amcl/src/secp256k1/ecdh.rs:cbc_iv0_decrypt"]}
{"id": "C69", "title": "Parameters of secp256k1", "statement": "The constants of secp256k1/rom.rs are those of SEC 2, the modulus and the order are prime, MCONST and R2MODP satisfy what the Montgomery reduction needs; the curve has exactly CURVE_ORDER points, so every finite point has that order and is a multiple of the generator; no point has a coordinate 0.", "quantifier": "all points of the curve", "why_tests_cant": "the order of a group with about 2^256 elements and the primality of two numbers are not observable by running the code", "anchors": ["amcl/src/secp256k1/rom.rs", "amcl/src/secp256k1/ecp.rs:generator"]}
{"id": "C70", "title": "Arithmetic of points on secp256k1", "statement": "add, dbl, neg, sub, is_infinity, equals, mul and mul2 of secp256k1/ecp.rs compute the group law, its tests and the multiples, with no overflow and no exception, for infinity and equal or opposite points, and for all exponents below 2^275.", "quantifier": "all representations of points with bounded excess, all exponents", "why_tests_cant": "overflow of limbs and the exceptional cases of the formulas occur for few of 2^512 arguments", "anchors": ["amcl/src/secp256k1/ecp.rs:add", "amcl/src/secp256k1/ecp.rs:dbl", "amcl/src/secp256k1/ecp.rs:neg", "amcl/src/secp256k1/ecp.rs:sub", "amcl/src/secp256k1/ecp.rs:is_infinity", "amcl/src/secp256k1/ecp.rs:equals", "amcl/src/secp256k1/ecp.rs:mul", "amcl/src/secp256k1/ecp.rs:mul2", "amcl/src/secp256k1/fp.rs:mul", "amcl/src/secp256k1/fp.rs:sqr", "amcl/src/secp256k1/fp.rs:inverse", "amcl/src/secp256k1/big.rs:mul"]}
{"id": "C71", "title": "Octet strings of points on secp256k1", "statement": "frombytes returns the finite point of which the argument begins with the uncompressed or compressed string of SEC 1, and infinity if there is none; it panics exactly on strings that are too short; tobytes writes these strings; decoding inverts encoding in both forms.", "quantifier": "all byte strings and all points", "why_tests_cant": "the claim is about every string, also those with coordinates that are not reduced or not on the curve", "anchors": ["amcl/src/secp256k1/ecp.rs:frombytes", "amcl/src/secp256k1/ecp.rs:tobytes", "amcl/src/secp256k1/fp.rs:sqrt"]}
{"id": "C72", "title": "Key pairs on secp256k1", "statement": "key_pair_generate makes the secret number from s modulo the order or from 64 bytes of the generator modulo the order, writes it back, and writes the uncompressed string of its multiple of the generator; public_key_validate returns 0 exactly for strings that begin with a string of a finite point of the curve, panics exactly for strings too short for their form, and returns INVALID_PUBLIC_KEY otherwise; a generated key is valid if and only if the secret is not 0.", "quantifier": "all slices, all seeds and positions of the generator", "why_tests_cant": "the generator is random; the claim is about all strings", "anchors": ["amcl/src/secp256k1/ecdh.rs:key_pair_generate", "amcl/src/secp256k1/ecdh.rs:public_key_validate", "amcl/src/secp256k1/big.rs:randomnum"]}
{"id": "C73", "title": "Diffie-Hellman on secp256k1", "statement": "ecpsvdp_dh writes the abscissa of d times Q for every public key Q in either form and every secret d, refuses exactly d = 0 modulo the order and strings that are no finite point of the curve, leaving z alone, and panics for short slices; two parties with any secrets obtain the same result from each other's keys.", "quantifier": "all secrets, all strings, all buffers", "why_tests_cant": "agreement is a statement about all pairs of secrets; invalid-curve points are refused for every string", "anchors": ["amcl/src/secp256k1/ecdh.rs:ecpsvdp_dh", "amcl/src/secp256k1/ecdh.rs:key_pair_generate"]}
{"id": "C74", "title": "ECDSA signing on secp256k1", "statement": "Whatever ecpsp_dsa returns is the signature of SEC 1 for the leftmost 256 bits of the hash value, with the one-time secret of the first pass that gives one, made of 64 bytes of the generator; the mask has no influence, except that a mask 0 that is used makes the function loop for ever; short slices make it panic.", "quantifier": "all messages of less than 2^29 bytes, all secrets, all seeds and positions of the generator", "why_tests_cant": "signatures depend on random numbers; passes that must be repeated and a mask 0 have probability 2^-256", "anchors": ["amcl/src/secp256k1/ecdh.rs:ecpsp_dsa", "amcl/src/secp256k1/big.rs:modmul", "amcl/src/secp256k1/big.rs:invmodp"]}
{"id": "C75", "title": "ECDSA verification on secp256k1", "statement": "ecpvp_dsa returns 0 exactly if the two numbers are in 1..n-1 and the equation of SEC 1 holds for the key and the leftmost 256 bits of the hash value; the other results and panics are characterised; every signature of ecpsp_dsa is accepted with the public key of key_pair_generate unless the secret is 0; (r, n-s) is accepted with (r, s); with an unknown hash name the message has no influence and a signature can be made from the public key alone.", "quantifier": "all keys, all messages of less than 2^29 bytes, all pairs of strings", "why_tests_cant": "that no other pair is accepted cannot be tested", "anchors": ["amcl/src/secp256k1/ecdh.rs:ecpvp_dsa", "amcl/src/secp256k1/ecdh.rs:ecpsp_dsa", "amcl/src/secp256k1/ecp.rs:mul2"]}
{"id": "C76", "title": "ECIES on secp256k1", "statement": "ecies_encrypt writes the public key of a one-time key made of 64 bytes of the generator, and returns AES-128-CBC with padding under the first half of KDF2 of that key and the shared abscissa; t gets the HMAC of the ciphertext, p2 and its length under the second half. ecies_decrypt returns nothing for incomplete blocks, wrong padding, a wrong tag of 4 to 32 bytes, points that are not on the curve and the secret 0; otherwise the decrypted string without its last block and then copies of the padding byte. So the round trip is always accepted and returns the message if and only if the bytes after its complete blocks have the value of the padding. With a tag of less than 4 bytes the tag and p2 have no influence; a tag of more than 32 bytes or a compressed v panics.", "quantifier": "all keys, parameters, messages, tags, seeds and positions of the generator, the three hash functions", "why_tests_cant": "a test with a message of complete blocks passes; that wrong tags are refused is a claim about all strings", "anchors": ["amcl/src/secp256k1/ecdh.rs:ecies_encrypt", "amcl/src/secp256k1/ecdh.rs:ecies_decrypt", "amcl/src/secp256k1/ecdh.rs:kdf2", "amcl/src/secp256k1/ecdh.rs:hmac"]}
{"id": "C77", "title": "What Debug prints", "statement": "BIG::tostring of a normalised number is its upper-case hexadecimal on 96 digits (more when it has more than 384 bits). {:?} of a secret key is its 48 bytes in hexadecimal, so two keys print alike exactly when they hold the same integer; {:?} of a Keypair contains that text. A point prints as infinity or as its affine coordinates on 96 digits each, where only a zero coordinate may appear as p; keys or signatures that print alike are equal. FP12::tostring writes the twelve coordinates of a pairing value, and values that print alike are equal. Nothing panics.", "quantifier": "all secret keys, all representations of points that the other properties allow, all numbers below 2^406", "why_tests_cant": "the digits come from a loop of shifts over limbs; that no two different values print alike is a claim about pairs", "anchors": ["src/keys.rs:SecretKey::fmt", "src/keys.rs:Keypair", "src/g1.rs:G1Point::fmt", "src/g2.rs:G2Point::fmt", "amcl/src/bls381/big.rs:tostring", "amcl/src/bls381/ecp.rs:tostring", "amcl/src/bls381/ecp2.rs:tostring", "amcl/src/bls381/fp4.rs:tostring", "amcl/src/bls381/fp12.rs:tostring"]}
{"id": "C78", "title": "The rest of the number functions", "statement": "For odd a below 2^406 BIG::invmod2m returns r < 2^384+2^257 with r*a = 1 mod 2^384 (not always the reduced one: 1 gives 2^384+1). BIG::shl and shr and DBIG::shr multiply and divide by 2^k for every k in range and panic exactly past the last limb. BIG::random is the number of the next 384 bits of the generator, which moves on by 48 bytes. DBIG::nbits is the bit length of every value with limbs up to 2^62, DBIG::to_string its hexadecimal form without leading zeros (empty for 0). DBIG::split at 348 <= n < 406 returns value div 2^n and leaves value mod 2^n in the lower limbs; it depends on n mod 58 only. set replaces one limb and panics past the end; xortop and ortop act on the bits of the top limb. or of two normalised numbers is their bitwise or, and isok holds exactly if every limb is a digit.", "quantifier": "all numbers, shifts, positions, generator states in the stated ranges", "why_tests_cant": "Newton iteration on limbs whose last step overflows the number on purpose; boundary positions of shifts; nothing in the repository calls these functions", "anchors": ["amcl/src/bls381/big.rs:invmod2m", "amcl/src/bls381/big.rs:shl", "amcl/src/bls381/big.rs:shr", "amcl/src/bls381/big.rs:random", "amcl/src/bls381/big.rs:set", "amcl/src/bls381/big.rs:xortop", "amcl/src/bls381/dbig.rs:split", "amcl/src/bls381/dbig.rs:nbits", "amcl/src/bls381/dbig.rs:to_string", "amcl/src/bls381/dbig.rs:shr"]}
{"id": "C79", "title": "Differential addition", "statement": "For every A, every two points S, T of the Montgomery curve y^2 = x^3 + A x^2 + x over the field of p elements, all normalised representations P, Q of their abscissas X:Z and W of the affine abscissa of S - T: if S - T is finite and its abscissa is not 0, ECP::dadd(P, Q, W) ends without overflow and holds the abscissa of S + T, also where S, T or S + T is infinity; y is unchanged and the result is normalised. If the abscissa of S - T is 0 the result is 0:0.", "quantifier": "all curves, points and representations in range", "why_tests_cant": "no curve compiled here is a Montgomery curve, so nothing calls the function; exceptional cases are a negligible share of all inputs", "anchors": ["amcl/src/bls381/ecp.rs:dadd"]}
{"id": "C80", "title": "Parameters of BLS12-383", "statement": "With x = 2^64 + 2^51 + 2^24 + 2^12 + 2^9 the constants CURVE_ORDER = r, MODULUS = p and CURVE_COF of bls383/rom.rs are x^4 - x^2 + 1, (x-1)^2 r / 3 + x and (x-1)^2 / 3; p and r are prime; MCONST p = -1 modulo 2^58 and R2MODP = 2^812 modulo p; CURVE_CRU is a primitive cube root of unity; (CURVE_GX, CURVE_GY) is a point of order r of y^2 = x^3 + 15, (CURVE_PXA + CURVE_PXB i, CURVE_PYA + CURVE_PYB i) one of y^2 = x^3 + 15 (1 + i), and ECP::generator and ECP2::generator return them.", "quantifier": "the constants; primality and the orders are statements about all divisors and all multiples", "why_tests_cant": "primality and exact orders cannot be established by sampling", "anchors": ["amcl/src/bls383/rom.rs", "amcl/src/bls383/ecp.rs:generator", "amcl/src/bls383/ecp2.rs:generator"]}
{"id": "C81", "title": "Field arithmetic of BLS12-383", "statement": "For all representations of field elements with normalised limbs and excess at most 2^18, add, sub, neg, mul, sqr, div2, inverse, reduce, equals (and conj, times_i, mul_ip in FP2) of bls383 return without overflow in debug and release builds and denote exactly the field operation; pow is right for all exponents below 2^400, imul for all factors up to 2^10, nres and redc for all numbers up to 2^23 p; jacobi is the quadratic character; sqrt returns a root of every square of FP; FP2::sqrt says true only with a root and false exactly for non-squares and real elements that are not squares in FP.", "quantifier": "all field elements and all their representations in range", "why_tests_cant": "the domain has 2^383 elements; overflow depends on the excess counters, which reach their limits only in rare chains of operations", "anchors": ["amcl/src/bls383/fp.rs", "amcl/src/bls383/fp2.rs", "amcl/src/bls383/big.rs", "amcl/src/bls383/dbig.rs"]}
{"id": "C82", "title": "Arithmetic of points of BLS12-383", "statement": "For all points g, h of y^2 = x^3 + 15 over the field of p elements, all points of y^2 = x^3 + 15 (1 + i) over its quadratic extension, and all their representations with excess at most 2^10: add, dbl, sub, neg of ECP and ECP2 of bls383 return representations of g + h, 2 g, g - h, -g, also for infinity and g = +-h; is_infinity and equals decide; affine changes only the representation and sets z to 1 for finite points; mul by every number below 2^403 is the multiple. Every point has a representation, and a representation stands for one point.", "quantifier": "all points, representations and scalars in range", "why_tests_cant": "exceptional cases of the addition law and of the window loop have negligible probability on random inputs", "anchors": ["amcl/src/bls383/ecp.rs", "amcl/src/bls383/ecp2.rs"]}
{"id": "C83", "title": "Arithmetic in the extension fields of BLS12-383", "statement": "For all representations of elements of the field with p^4 elements with normalised limbs and excess at most 2^18, add, dbl, sub, rsub, neg, conj, nconj, mul, sqr, inverse, div2, times_i, div_i, div_2i, reduce, padd, pmul, qmul, the tests, pow and frob of bls383 return without overflow in debug and release builds and denote exactly the field operation. sqrt outside the quadratic subfield says true only with a root and false only with the element unchanged, exactly by the solvability of the two inner roots; in the subfield it always says true, and is wrong when the inner root fails. In the field with p^12 elements mul, sqr, inverse, conj (the power p^6), frob (the power p), reduce and equals are right for excess at most 2^16, and usqr is the square for every element of order dividing p^4 - p^2 + 1.", "quantifier": "all field elements and all their representations in range", "why_tests_cant": "the domains have 2^1532 and 2^4596 elements; overflow depends on excess counters that reach their limits only in rare chains of operations", "anchors": ["amcl/src/bls383/fp4.rs", "amcl/src/bls383/fp12.rs", "amcl/src/bls383/fp2.rs:div_ip", "amcl/src/bls383/fp2.rs:div_ip2"]}
{"id": "C84", "title": "Pairing of BLS12-383", "statement": "The curve has (x-1)^2 r / 3 points and the twist (x^8 - 4 x^7 + 5 x^6 - 4 x^4 + 6 x^3 - 4 x^2 - 4 x + 13) r / 9, and the points killed by r are the multiples of the generators. For every point of the twist in affine form and every point of the curve in any representation, ate followed by fexp returns without panic or overflow the canonical form of the value of Miller's algorithm to the power 3 (p^12 - 1) / r. For arguments of order dividing r, not both infinity, this is the ate pairing, which is additive in both arguments, has values of order dividing r, order exactly r at the generators, and is 1 only if an argument is infinity. The value depends on the points only. Infinity with a point of abscissa 0, or with infinity, gives 0.", "quantifier": "all points, representations and multiples of the generators", "why_tests_cant": "bilinearity, non-degeneracy and group orders are statements about groups of 2^256 to 2^766 elements", "anchors": ["amcl/src/bls383/pair.rs:ate", "amcl/src/bls383/pair.rs:fexp", "amcl/src/bls383/pair.rs:line", "amcl/src/bls383/rom.rs"]}
{"id": "C85", "title": "Multiplication with endomorphisms on BLS12-383", "statement": "ECP::mul2 of bls383 returns e g + f h for all points of any order and scalars below 2^402; ECP2::mul4 the sum of four multiples for scalars below 2^404; FP12::pow4 the product of four powers of elements of order dividing p^4 - p^2 + 1. glv and gs decompose every scalar (below 2^384 and 2^403) to the bases -x^2 modulo r and x. On points of order dividing r, g1mul and g2mul return the multiple for every scalar below 2^403, in affine form unless infinity, and gtpow the power; multiplying an argument of the pairing or its value gives the same limbs. On the point (0, sqrt 15) of order 3 g1mul returns the negative of the multiple for the scalar x^2. Both, and gtpow on the cyclotomic subgroup, are right for all scalars exactly at order dividing r: one scalar each (x^2, x, x) is wrong at every other point.", "quantifier": "all points, all representations, all scalars in range", "why_tests_cant": "the recodings and table lookups have branches that depend on single bits of scalars of 256 bits", "anchors": ["amcl/src/bls383/pair.rs:g1mul", "amcl/src/bls383/pair.rs:g2mul", "amcl/src/bls383/pair.rs:gtpow", "amcl/src/bls383/pair.rs:glv", "amcl/src/bls383/pair.rs:gs", "amcl/src/bls383/ecp.rs:mul2", "amcl/src/bls383/ecp2.rs:mul4", "amcl/src/bls383/fp12.rs:pow4"]}
{"id": "C86", "title": "Double pairing of BLS12-383", "statement": "For all points of the twist in affine form, of any order, and all points of the curve in any representation, fexp of ate2 of bls383 returns without panic or overflow the canonical form of the product of the values of fexp of ate. For arguments of order dividing r, no pair both infinity, it is the product of the two pairings, and with the negative of one argument it is 1 exactly if the two pairings are equal.", "quantifier": "all points and representations", "why_tests_cant": "equality of pairings over groups of 2^256 elements", "anchors": ["amcl/src/bls383/pair.rs:ate2", "amcl/src/bls383/pair.rs:fexp"]}
{"id": "C87", "title": "Strings of points and field elements of BLS12-383", "statement": "ECP::frombytes of bls383 returns a finite point exactly for the strings that start with one of the two encodings of the point, and infinity otherwise; it panics exactly if the string is too short. tobytes writes these encodings for every representation of every finite point, except for affine representations of (0, +-sqrt 15) with nonzero limbs for 0, which come back as infinity. The compressed string of infinity decodes to a finite point. ECP2 and FP12 read blocks of 48 bytes modulo p, panic exactly for strings that are too short, and every value in every representation survives transport, infinity included; the strings are not unique. Reduced FP12 values are equal exactly if their strings are.", "quantifier": "all byte strings, all representations of all points and field elements", "why_tests_cant": "exactness of decoders over all strings of 49 to 576 bytes", "anchors": ["amcl/src/bls383/ecp.rs:frombytes", "amcl/src/bls383/ecp.rs:tobytes", "amcl/src/bls383/ecp2.rs:frombytes", "amcl/src/bls383/ecp2.rs:tobytes", "amcl/src/bls383/fp12.rs:frombytes", "amcl/src/bls383/fp12.rs:tobytes"]}
{"id": "C88", "title": "Maps from strings to the groups of BLS12-383", "statement": "ECP::mapit of bls383 ends for every string of at least 48 bytes without panic or overflow, returns the point over the first abscissa of the curve at or after the string modulo p, multiplied by the cofactor, and this point has order r. cfp takes every point to the group of order r. pinmul multiplies every point by the last bts bits of the exponent and panics above 32 bits. ECP2::mapit ends for every string of at least 48 bytes and returns the point over the first usable abscissa 1+xi, 1+(x+1)i, ..., multiplied by (u^2-u-1)+(u-1)psi+2psi^2 with the curve parameter u and the twisted Frobenius map psi. This combination is multiplication by 3(u^2-1) times the cofactor at every point of the twist, so the result always lies in the subgroup of order r; psi satisfies psi^2-(u+1)psi+p=0 at every point of the twist. Shorter strings panic. The specifications determine the points.", "quantifier": "all byte strings, all points and representations", "why_tests_cant": "termination of the searches and absence of overflow for all inputs; the combination of scalar multiples and Frobenius maps is exact for all points, of any order", "anchors": ["amcl/src/bls383/ecp.rs:mapit", "amcl/src/bls383/ecp.rs:cfp", "amcl/src/bls383/ecp.rs:pinmul", "amcl/src/bls383/ecp2.rs:mapit", "amcl/src/bls383/ecp2.rs:frob"]}
{"id": "C89", "title": "Compressed powers on BLS12-383", "statement": "On bls383, two elements of the cyclotomic subgroup have the same trace exactly if they are conjugate over Fp4. FP12::trace computes the trace of every element, FP4::xtr_pow the trace of a power for exponents from 1 to 2^406, xtr_pow2 the trace of y^a z^b for exponents from 1 to 2^403. FP12::compow gives the trace of the result of gtpow for all elements of order dividing r and exponents below 2^403 that are not multiples of x = p mod r; for positive multiples, r - 1 among them, it does not come to an end, and for exponent 0 it returns the trace of the power 2^350, which is wrong except at 1. pinpow returns the power by the low bts bits of the exponent, and panics for more than 32 bits.", "quantifier": "all elements, representations and exponents in range", "why_tests_cant": "excess counters grow along a loop of hundreds of steps, and the exponents for which the loop hangs are multiples of a number of 65 bits", "anchors": ["amcl/src/bls383/fp4.rs:xtr_pow", "amcl/src/bls383/fp4.rs:xtr_pow2", "amcl/src/bls383/fp12.rs:trace", "amcl/src/bls383/fp12.rs:compow", "amcl/src/bls383/fp12.rs:pinpow"]}
{"id": "C90", "title": "M-Pin authentication on BLS12-383", "statement": "On bls383: server_2 accepts a proof (R, V) for challenge y exactly if the cofactor kills V + s(yA + R), whatever points the client sends, and otherwise answers BAD_PIN; so points of order dividing the cofactor can be added unnoticed. A full honest run (hash_id, get_server_secret, get_client_secret, extract_pin, client_1, server_1, client_2, server_2), with or without date and permit, ends without panic; the server accepts if the PINs agree modulo 10000, otherwise it refuses and hands out strings e, f with e = f^(difference of the PINs). restore_factor undoes extract_factor; get_y is the hash modulo r; with a date and no permit client_1 adds the PIN twice.", "quantifier": "all identities up to 2^29 - 21 bytes, hash functions, dates, PINs, master secrets, random numbers and challenges of 48 bytes that avoid infinity; all points sent by a client", "why_tests_cant": "the scalars and strings range over sets of size 2^382 and more; a test fixes one identity and cannot show that wrong PINs are always refused or what exactly a forged pair must satisfy", "anchors": ["amcl/src/bls383/mpin.rs:server_2", "amcl/src/bls383/mpin.rs:client_1", "amcl/src/bls383/mpin.rs:client_2", "amcl/src/bls383/mpin.rs:server_1", "amcl/src/bls383/mpin.rs:extract_factor", "amcl/src/bls383/mpin.rs:restore_factor", "amcl/src/bls383/mpin.rs:hashit", "amcl/src/bls383/mpin.rs:get_client_permit"]}
{"id": "C91", "title": "Common keys of M-Pin on BLS12-383", "statement": "On bls383: client_key computes the first 16 bytes of the hash of the trace of (g1 g2^pin)^(rho+h) and of the point xW; server_key those of the trace of e(S, Z+hA) and of wU. In a full run (hash_id, secrets, extract_pin, client_1, server_1, precompute, get_g1_multiple twice, both keys) no step panics or fails, and the two strings hashed are equal if and only if the PINs agree, or the power for the wrong PIN is a conjugate of the right one (two explicit congruences modulo r). client_key reduces the PIN modulo 2^14, not 10000, does not end if rho+h modulo r is a positive multiple of p mod r, and computes the key of the power 2^350 where r divides rho+h. hash_all hashes exactly the transcripts of 484 bytes and panics on longer ones.", "quantifier": "all identities, hash functions, PINs, secrets, random numbers and transcript hashes of 48 bytes that avoid infinity and the multiples of p mod r; all points Z of the curve", "why_tests_cant": "agreement is an identity between two different computations (trace exponentiation in Fp4 and a pairing) over scalars of 255 bits; disagreement for wrong PINs is a statement about conjugates that no sample shows", "anchors": ["amcl/src/bls383/mpin.rs:client_key", "amcl/src/bls383/mpin.rs:server_key", "amcl/src/bls383/mpin.rs:precompute", "amcl/src/bls383/mpin.rs:get_g1_multiple", "amcl/src/bls383/mpin.rs:hash_all", "amcl/src/bls383/mpin.rs:hash"]}
{"id": "C92", "title": "M-Pin's search for the error of a PIN on BLS12-383", "statement": "On bls383: kangaroo ends without panic or overflow and computes exactly the outcome of the search by two kangaroos (tame: 200 jumps from 1; wild: at most 800 jumps from e; jumps of 2^i with i from the last 20 bits of the first coordinate). An answer n other than 0 after a meeting of the first kind satisfies e f^n = 1; after a meeting of the second kind it never does. After a failed run of M-Pin the answer is 0 or the difference of the two PINs, unless the trap is at a distance below 10000.", "quantifier": "all strings e and all strings f of elements of the cyclotomic subgroup; all runs of C90", "why_tests_cant": "the search depends on pseudo-random paths; soundness for all inputs and the fault of the second kind of meeting are not visible on samples", "anchors": ["amcl/src/bls383/mpin.rs:kangaroo", "amcl/src/bls383/fp12.rs:equals", "amcl/src/bls383/fp12.rs:usqr"]}
{"id": "C93", "title": "Points of BLS12-383 as pairs of numbers in M-Pin", "statement": "On bls383: Every string of 97 bytes without the third bit in its first byte stands for exactly one point, the sum of two points found by counting up from two numbers to an abscissa on the curve. decoding computes the uncompressed string of that point if it is finite, and refuses the third bit. encoding refuses coordinates off the curve; otherwise, with a seeded generator, it computes the pair fixed by the next 98 bytes of the generator, unless the difference of the point and the first random point is infinity or has abscissa 0. What it writes, decoding turns back into the string of the point. The numbers that stand for a point of abscissa x other than 0 are exactly those above the next lower abscissa on the curve, up to x.", "quantifier": "all strings of 97 bytes; all entropy strings and positions of the generator; all points of the curve of abscissa other than 0, of whatever order", "why_tests_cant": "the round trip relies on two searches, up and down, to agree for every abscissa and random choice; tests see a few", "anchors": ["amcl/src/bls383/mpin.rs:encoding", "amcl/src/bls383/mpin.rs:decoding", "amcl/src/bls383/mpin.rs:emap", "amcl/src/bls383/mpin.rs:unmap", "amcl/src/bls383/big.rs:randomnum"]}
{"id": "C94", "title": "Shares of secrets and random scalars in M-Pin", "statement": "recombine_g1 refuses (status -14) exactly if one of the two strings stands for no finite point of the curve, and otherwise writes the uncompressed string of the sum (for sums other than infinity and points of abscissa 0); recombine_g2 does the same on the twist, accepting non-reduced coordinates. The client secrets handed out by two authorities with master secrets s1 and s2 add up, byte for byte, to the client secret for s1 + s2, and the server secrets to a string of the same point. random_generate returns the next 510 bits of the seeded generator modulo r, using 64 bytes; get_g1_multiple and client_1 with a generator equal random_generate followed by the same function without one, for all arguments, failing cases included.", "quantifier": "all strings of at least 97 (192) bytes; all master secrets and identities of 48 bytes with multiples other than infinity; all entropy strings and positions of the generator; all arguments of client_1 and get_g1_multiple", "why_tests_cant": "equality of shares is an identity in the group for scalars of 255 bits and more; the refusals range over all strings", "anchors": ["amcl/src/bls381/mpin.rs:recombine_g1", "amcl/src/bls381/mpin.rs:recombine_g2", "amcl/src/bls381/mpin.rs:random_generate", "amcl/src/bls381/mpin.rs:get_g1_multiple", "amcl/src/bls381/mpin.rs:client_1", "amcl/src/bls381/mpin.rs:get_client_secret", "amcl/src/bls381/mpin.rs:get_server_secret"]}
{"id": "C95", "title": "Shares of secrets and random scalars in M-Pin on BLS12-383", "statement": "On bls383: recombine_g1 refuses (status -14) exactly if one of the two strings stands for no finite point of the curve, and otherwise writes the uncompressed string of the sum (for sums other than infinity and points of abscissa 0); recombine_g2 does the same on the twist, accepting non-reduced coordinates. The client secrets handed out by two authorities with master secrets s1 and s2 add up, byte for byte, to the client secret for s1 + s2, and the server secrets to a string of the same point. random_generate returns the next 514 bits of the seeded generator modulo r, using 65 bytes; get_g1_multiple and client_1 with a generator equal random_generate followed by the same function without one, for all arguments, failing cases included.", "quantifier": "all strings of at least 97 (192) bytes; all master secrets and identities of 48 bytes with multiples other than infinity; all entropy strings and positions of the generator; all arguments of client_1 and get_g1_multiple", "why_tests_cant": "equality of shares is an identity in the group for scalars of 255 bits and more; the refusals range over all strings", "anchors": ["amcl/src/bls383/mpin.rs:recombine_g1", "amcl/src/bls383/mpin.rs:recombine_g2", "amcl/src/bls383/mpin.rs:random_generate", "amcl/src/bls383/mpin.rs:get_g1_multiple", "amcl/src/bls383/mpin.rs:client_1", "amcl/src/bls383/mpin.rs:get_client_secret", "amcl/src/bls383/mpin.rs:get_server_secret"]}
{"id": "C96", "title": "Mapping strings to secp256k1, the ladder and the endomorphism", "statement": "On secp256k1: mapit ends for every string of at least 32 bytes and returns the point over the first abscissa, counting up from the first 32 bytes modulo p, that is one of a point, with even ordinate; that point generates the group. Shorter strings panic. pinmul multiplies every point by the last bts bits of the multiplier, also for negative multipliers, and overflows for bts > 32. mulx with a cube root of unity c maps (x, y) to (c x, y), and this is multiplication of all points by one number k < n, with k^2+k+1 divisible by n if c is not 1. cfp returns its argument.", "quantifier": "all strings; all points in all representations within the excess bounds; all multipliers; all cube roots of unity", "why_tests_cant": "termination for all strings and the identity of an endomorphism with a scalar concern a group of order about 2^256", "anchors": ["amcl/src/secp256k1/ecp.rs:mapit", "amcl/src/secp256k1/ecp.rs:cfp", "amcl/src/secp256k1/ecp.rs:pinmul", "amcl/src/secp256k1/ecp.rs:mulx", "amcl/src/secp256k1/ecp.rs:cswap"]}
{"id": "C97", "title": "Differential addition in secp256k1", "statement": "dadd of amcl/src/secp256k1/ecp.rs: on every Montgomery curve over the field of secp256k1, given the abscissas of S and T and the affine abscissa x of S - T (a finite point with x not 0), it returns the abscissa of S + T, exceptional cases included; y is left alone. For x = 0 it returns 0 : 0, which stands for no point.", "quantifier": "all curve coefficients A, all pairs of points, all representations of the abscissas within the excess bounds", "why_tests_cant": "no test can reach the function: the crate selects no Montgomery curve; the exceptional cases are of measure 2^-256", "anchors": ["amcl/src/secp256k1/ecp.rs:dadd"]}
{"id": "C98", "title": "The other number functions and the printed forms of secp256k1", "statement": "With the five limbs of 56 bits of amcl/src/secp256k1: div, DBIG::div, div3, mod2m, smul, pxmul, plus, imul, modmul, modsqr, modneg, powmod, invmodp and invmod256 return exactly the integer their name says, without overflow, and their loops end; invmodp with an odd modulus never ends precisely when there is no inverse. invmod2m inverts odd numbers modulo 2^256, below 2^256+2^226 (1 gives 2^256+1). shl and shr multiply and divide by 2^k for every k in range and panic exactly past the last limb. random is the number of the next 256 bits of the generator. nbits, to_string and split of DBIG, set, xortop and ortop are exact. tostring prints a number in hexadecimal on at least 64 digits, a field element as its least residue (a nonzero zero as p), a point as its coordinates or infinity; equal strings come exactly from equal points. or of two normalised numbers is their bitwise or, and isok holds exactly if every limb is a digit.", "quantifier": "every normalised number below 2^280 (2^560 for double length), every modulus, exponent, shift and generator state; all points in all representations within the excess bounds", "why_tests_cant": "the range has more than 2^280 values, carries out of the top limb occur for few of them, and non-termination is not observable by a test", "anchors": ["amcl/src/secp256k1/big.rs", "amcl/src/secp256k1/dbig.rs", "amcl/src/secp256k1/fp.rs:tostring", "amcl/src/secp256k1/ecp.rs:tostring"]}
{"id": "C99", "title": "Signatures outside the subgroup", "statement": "The decoders accept signature points of any order. For every finite point Q of the twist, of any order, ate_pairing still computes the value of the Miller function defined by the linear recursion, after the final exponentiation, and this is an r-th root of unity. So every point S has exactly one shadow S' of order dividing r with the same pairing with the generator, and verify, verify_hashed and the verify and verify_multiple of aggregates give S and S' the same verdict for every message and every key. For a message with finite point g, the keys k'*G1 that accept S are exactly those with k' = k mod r for one k < r. If the order of S does not divide r, the same key accepts the different point k*g as well, and for some key at least h2 (507 bits) different signature points are accepted.", "quantifier": "every point of the twist as signature, every message, domain and hash function with finite message point, every key (in the subgroup for the statements on k)", "why_tests_cant": "a point outside the subgroup and the key that accepts it cannot be found by a test without a discrete logarithm; absence of other accepting keys is a statement about 2^255 keys", "anchors": ["src/signature.rs:verify", "src/signature.rs:verify_hashed", "src/aggregates.rs:verify", "src/aggregates.rs:verify_multiple", "src/amcl_utils.rs:ate_pairing", "amcl/src/bls381/pair.rs:ate"]}
{"id": "C100", "title": "The verification functions agree with each other", "statement": "For every signature point and all keys, of any order, infinity included, and every hash function: verify of an aggregate signature with an aggregate key gives the verdict of verify of a signature with the same point and key; verify_multiple with one key gives the verdict of verify; verify_multiple does not depend on the order of the pairs of message and key; verify_hashed gives the verdict of verify if its strings are congruent to the hashes modulo p, whatever follows the first 48 bytes, and new_hashed the signature of new. If the message point is finite: two keys for one message may be replaced by their sum, keys at infinity have no influence while another pair is left, and verify_multiple with one message for all keys gives the verdict of verify with the aggregate key. With the message point infinity, merging changes the verdict.", "quantifier": "every signature point, all keys in all representations, all messages, domains, hash functions, list lengths and permutations", "why_tests_cant": "the statement compares verdicts for all signatures and keys, almost all of which no test can produce without a discrete logarithm", "anchors": ["src/signature.rs:verify", "src/signature.rs:verify_hashed", "src/signature.rs:new_hashed", "src/aggregates.rs:verify", "src/aggregates.rs:verify_multiple"]}
{"id": "C101", "title": "Strings whose message point is infinity", "statement": "There are two strings of 48 bytes, given explicitly, for which map_to_g2 returns the point at infinity. new_hashed then makes the signature at infinity for every secret key. verify_hashed accepts the signature at infinity for these strings and every finite public key whose abscissa is not 0, and rejects it for all other keys; in particular the 96 bytes c0 00 ... 00 decode to a signature that is accepted for the public key of every secret key that is not a multiple of r.", "quantifier": "all secret keys, all public keys of any order", "why_tests_cant": "a random string hits a point whose order divides the cofactor with probability 2^-255, and acceptance for all 2^255 keys cannot be enumerated", "anchors": ["src/amcl_utils.rs:map_to_g2", "src/signature.rs:new_hashed", "src/signature.rs:verify_hashed"]}
{"id": "C102", "title": "Related messages of the pre-hashed functions", "statement": "Let two strings of at least 48 bytes stand for an abscissa x. If x is not the abscissa of a point with an ordinate that is not purely imaginary, then the strings for x+1 give the same verdict of verify_hashed for every signature and key, and new_hashed makes equal signatures. If it is, and beta is a primitive cube root of unity, then for keys k*g1 with r not dividing k a signature of order dividing r is accepted for x exactly if the signature with its abscissa multiplied by beta is accepted for the strings of beta*x; in particular the signature made by new_hashed for x gives an accepted signature for beta*x without the secret key.", "quantifier": "all pairs of strings, signatures, keys and both cube roots of unity", "why_tests_cant": "the relation holds for an unbounded set of messages, all keys and all signatures, accepted or not", "anchors": ["src/amcl_utils.rs:map_to_g2", "src/signature.rs:new_hashed", "src/signature.rs:verify_hashed"]}
{"id": "C103", "title": "The sign bit of keys and signatures on the wire", "statement": "Changing bit 5 of the first byte of a compressed string whose bit 7 is set and bit 6 is clear gives the same decoding error, or two accepted strings of opposite finite points. The opposite signature with the opposite key has the same verdict of verify and verify_hashed, and the opposite aggregate signature with the opposites of all keys has the same verdict of verify_multiple, for points of all orders; so changing the bit in both strings changes no verdict. For a key k*g1 with r not dividing k and a message with finite point, an accepted signature of any order is rejected after changing the bit in only one of the strings.", "quantifier": "all strings, all messages and domains, all hash functions, signatures and keys of all orders", "why_tests_cant": "covers points outside the subgroups, infinity and the ordinates where the encoder's bit is wrong, for all strings", "anchors": ["src/amcl_utils.rs:decompress_g1", "src/amcl_utils.rs:decompress_g2", "src/signature.rs:verify", "src/aggregates.rs:verify_multiple"]}
{"id": "C104", "title": "What the verdict on an aggregate says about its members", "statement": "Take signatures and keys in the subgroups and messages with finite point. Aggregating with new and add and from_public_keys, if every signature is accepted by its own verify then the aggregate is accepted by verify (one message) or verify_multiple (32-byte messages, one key each). If all but one are accepted by their own verify, the verdict on the aggregate equals the verdict of verify on the remaining one, which does not panic. If two accepted signatures are changed by adding a nonzero subgroup point to one and subtracting it from the other, verify rejects both and the aggregate is still accepted.", "quantifier": "all lists of members of all lengths and all positions of the unknown one, all messages, domains and hash functions, all keys and signatures in the subgroups, all nonzero subgroup points", "why_tests_cant": "the claim relates verdicts for all lists, keys and wrong signatures, which needs bilinearity and non-degeneracy of the pairing as computed", "anchors": ["src/aggregates.rs:verify", "src/aggregates.rs:verify_multiple", "src/aggregates.rs:add", "src/signature.rs:verify"]}
