# Formal model of bls-aggregates (BLS12-381 on vendored AMCL)

## What is modelled

The model follows the Rust source function by function, bottom up:

| layer | Rust | Lean (`lean/Verif/Model/`) |
|---|---|---|
| machine integers | i64 / i128 / i32 / u8 arithmetic | `Machine` |
| constants | `amcl/src/bls381/rom.rs` | `Rom` |
| big integers | `big.rs`, `dbig.rs` | `Big`, `BigArith` |
| prime field, quadratic field | `fp.rs`, `fp2.rs` | `Fp`, `Fp2` |
| F_p^4, F_p^12 | `fp4.rs`, `fp12.rs` | `Fp4`, `Fp12` |
| curve over F_p, twist over F_p^2 | `ecp.rs`, `ecp2.rs` | `Window`, `Ecp`, `EcpMore`, `Ecp2`, `Ecp2More` |
| compressed powers, strings | `fp4.rs`, `fp12.rs` | `Xtr`, `Fp12More` |
| SHA-3 | `sha3.rs` | `Sha3` |
| AES | `aes.rs` | `Aes` |
| powers, roots and tests in degree 4 | `fp2.rs`, `fp4.rs` | `Fp4More` |
| pairing | `pair.rs` | `Pair`, `Ate2` |
| joint multiplication, endomorphisms | `ecp.rs`, `ecp2.rs`, `fp12.rs`, `pair.rs` | `Joint`, `Endo` |
| SHA-256, random generator | `amcl/src/{hash256,rand}.rs` | `Hash256`, `Rand` |
| SHA-512, SHA-384 | `amcl/src/{hash512,hash384}.rs` | `Hash512` |
| M-PIN | `amcl/src/bls381/mpin.rs` | `Mpin` |
| GCM | `amcl/src/gcm.rs` | `Gcm` |
| NewHope | `amcl/src/nhs.rs` | `Nhs` |
| secp256k1 | `amcl/src/secp256k1/{rom,big,dbig,fp,ecp}.rs` | `Secp/{Rom,Big,BigArith,BigRest,Fp,Window,Ecp,EcpMore,EcpRest,Joint,Rand}` |
| BLS12-383 | `amcl/src/bls383/*.rs` | `B383/*` |
| ECDH, ECDSA, ECIES | `amcl/src/secp256k1/ecdh.rs` | `Ecdh`, `Secp/Ecdh` |
| glue | `src/amcl_utils.rs` | `Utils` |
| crate | `src/{g1,g2,keys,signature,aggregates,rng}.rs` | `Api` |

Conventions.

* A Rust function that takes `&mut self` becomes a Lean function that returns the new value.
* Every model function that can panic returns `Option`. `none` stands for a debug panic (arithmetic
  overflow, index out of bounds), for a loop that never ends, and for a call outside the range the
  model covers (said so at the definition). A result `some r` therefore means that debug and release
  builds both return `r`.
* Machine words are Lean `Int`s; `add64`, `sub64`, `mul64`, `i128` check the range and fail. Bitwise
  operations go through `BitVec 64` / `BitVec 128`. `<<` drops high bits like Rust does.
* Fixed-length loops over the 7 (or 14) limbs are unrolled. Data dependent loops are
  `partial_fixpoint` definitions, so termination is something that is proved, not assumed.
* Branches on compile-time constants (`CURVETYPE`, `SEXTIC_TWIST`, `MODTYPE`, ...) are resolved.
* Simplifications are stated in the comment of the definition concerned.

## What is not modelled

* Keccak-256 (external crate `tiny-keccak`) is a parameter: an arbitrary function from byte strings to
  32-byte strings. Nothing about collision resistance is claimed.
* The `rand::Rng` passed to `SecretKey::random` is an arbitrary supply of 256 bytes.
* The indented form `{:#?}` of `Debug`, `PublicKey::new_from_raw` (a constructor), benches, heap allocation failure,
  constant-time behaviour, Rust moves and borrows.
* `bls381/ecdh.rs` and `bls383/ecdh.rs`: no `mod.rs` names them, so they are never compiled. The `main` functions that are
  commented out, and `today` and `get_time`, which read the clock.
* Branches for other curve types (Edwards, Montgomery, BN, 16- and 32-bit chunks).
* Computational security (hardness of discrete log / CDH) is not expressible here.

## Trusted base

* The Lean 4.33.0 kernel. Every theorem named in `MANIFEST.json` depends on exactly
  `propext`, `Classical.choice` and `Quot.sound` (checked with `#print axioms` on each). No `sorry`, no
  `native_decide`, no `bv_decide`, no project axioms. Large computations use `decide +kernel`, which is
  kernel reduction.
* Mathlib (kernel checked) for finite fields, quadratic reciprocity and the group of points of a
  Weierstrass curve.
* The reading of the Rust text into the model. Each definition cites file and lines. The tie to the code
  is this reading, and one test outside the proofs: `conformance/vectors.py` (with a Keccak-256 in
  `keccak.py`) writes a Lean file that runs the model on the test vectors of
  `src/test_vectors/test_bls.yml`; every line comes out as expected. The Rust code itself was never run.
* The specifications in `lean/Verif/Spec/`, which are meant to be read. They do not import the model.
  `Props/Vectors.lean` proves that those of SHA-3, AES, GCM, HMAC and PBKDF2 give the values of published test vectors.

## Specifications (`lean/Verif/Spec/`)

`Bytes` big-endian strings; `Field`, `Field2`, `Tower` the fields; `Curve`, `Groups`, `Generators` the
two groups over Mathlib's `WeierstrassCurve.Affine.Point`; `Encoding`, `SignBit` flag bits and the sign
rule; `HashToCurve` trial-and-increment map; `Pairing` the ate pairing as a product of line values;
`Miller` the textbook double-and-add form; `Sha256` FIPS 180-4; `Rng` the subtract-with-borrow generator.
The other files are one for each standard or scheme: `Sha512`, `Sha3`, `Aes`, `Modes`, `CbcPad`, `Gcm`, `Ecdh` (HMAC, KDF,
PBKDF2), `Nhs`, `Mpin*`, `Octets*`; `Secp/*` the curve secp256k1 and ECDSA (SEC 1, SEC 2).

## How the proofs go (`lean/Verif/Proof/`)

1. Limbs. `BIG.val` is the integer of a limb vector. Each operation is proved to succeed under stated limb
   bounds and to compute the intended integer (`Machine`, `Big`, `BigMore`, `BigMul`, `Dbig`).
2. Fields. `FP.Ok f L E v`: limbs bounded by `L`, excess counter at most `E`, value `v*R mod p`. Every
   operation preserves this and computes the field operation (`Fp`, `Fp2`, `Fp4`, `Fp12`, `Wide`, `Jacobi`,
   `Fp2Sqrt`, `Tower`, `Cyclotomic`, `Fexp`). Primality of p and r: Pocklington certificates (`Primes`).
3. Groups. `Rep` relates a projective triple to a point of Mathlib's group. The complete addition formulas
   are proved equal to the group law with no exceptional case (`Rcb`, `EcpAdd`, `Ecp2Add`), scalar
   multiplication is `n • P` (`Window`, `EcpMul`, `Ecp2Mul`). The numbers of points come from a character
   sum argument and points of large order (`Count`, `Order`, `Orders`, `CurveEval`).
4. Hashing to the twist ends by a Stepanov style count (`Stepanov`, `Hash`).
5. Pairing. Line values form a cocycle (`Cocycle`, `Divisor`), lines satisfy reciprocity (`Reciprocity`),
   which gives additivity in both arguments; `Lines`, `LineValue`, `SignedMiller`, `Ate` connect the code to
   the definition; `Psi`, `Nondeg`, `Eval12` give non-degeneracy; `Degenerate` treats infinity.
6. Codecs, aggregation and verification (`Codec1`, `Codec2`, `SignBit`, `Generator`, `Aggregate`, `Verify`,
   `Reach`), random numbers and hash functions (`Rng`, `Sha256`, `Sha512`).
7. The properties themselves are in `lean/Verif/Props/*.lean`, apart from the lemmas. Beside each theorem
   an `example` shows a concrete case that meets its hypotheses.

## Properties

* **C01** Secret key byte round trip: limb-level codec, induction on the bytes.
* **C02** Public key is the scalar multiple of the generator: limb-level `ECP.mul` proved equal to n•G.
* **C03** Key derivation depends only on the key modulo the group order: C02 plus the order of G.
* **C04** Signature is the scalar multiple of the message point, and the call always ends.
* **C05** Sign then verify succeeds: C02, C04, bilinearity. No hypothesis on the pairing is left.
* **C06** Verification accepts exactly one signature point of order dividing r.
* **C07**, **C08**, **C09**, **C10** Aggregation is the group sum, in any order, and matches sums of keys.
* **C11**, **C12** Exact results of `verify` for aggregates and of `verify_multiple`.
* **C13**, **C14**, **C15**, **C16**, **C20**, **C21** Decoders: total, curve points only, exact
  acceptance sets and error precedence.
* **C17**, **C18**, **C19**, **C22**, **C24** Round trips, the exact sign rule, canonicity, dependence on
  the group element only; with the exceptions stated and shown to occur.
* **C23** Equality is equality of group elements.
* **C25**, **C26** Cofactor, numbers of points, message points lie in the subgroup.
* **C27**, **C28** Choice of the ordinate; domain separation.
* **C29**, **C36** Random keys: range, and the exact function of the entropy.
* **C30**, **C33**, **C37** No overflow or panic anywhere; exact field arithmetic; square roots.
* **C31**, **C32** The code computes the ate pairing, for every representation, infinity included.
* **C34** Decoding does not check the subgroup (concrete strings).
* **C35** HASH256 is SHA-256.
* **C38**, **C39**, **C40** Compressed transport, rogue keys, the key at infinity.
* **C41** Division, modular products, powers and inverses of big integers; when `invmodp` never ends.
* **C42** Joint multiplication: window recoding of two scalars, signed recoding of four (`Proof/Joint`).
* **C43**, **C44**, **C45** Multiplication with endomorphisms: decomposition of the scalar and the
  eigenvalues on the subgroup of order r (`Glv`, `Psi`, `Endo`, `Gtpow`).
* **C46** HASH512 is SHA-512 and HASH384 is SHA-384 (release build); reuse of the object.
* **C47** `ate2` followed by `fexp` is the product of two pairings; equations of pairings by one final exponentiation.
* **C48** AMCL's own octet strings for the first curve: exact decoding, transport, infinity.
* **C49** `mapit`, `cfp` and the ladder `pinmul` on the first curve.
* **C50** AMCL's own strings for the twist: exact decoding, transport, malleability.
* **C51** `mapit` on the twist; its shortcut multiplies by `3(u²-1)h₂` at every point (`Proof/Clear`), so it lands in the subgroup of order r.
* **C52**, **C53** Traces of powers from traces (`Sat`, `Xtr`, `Compow`); powers by small exponents.
* **C54** AMCL's strings for F_p^12.
* **C55** M-Pin authentication: what the server accepts, honest runs, factors.
* **C56** M-Pin's common keys: what client and server hash, agreement for the right PIN, disagreement for a wrong one.
* **C57** The search for the error of a PIN (`kangaroo`): exact outcome, soundness, the unsound second exit.
* **C58** `encoding` and `decoding` of points as pairs of numbers: exact meaning, round trip, the numbers for a point.
* **C59** arithmetic of the fields of degree 4 and 12; what `FP4::sqrt` does.
* **C60** `sha3.rs` computes SHA-3 and SHAKE of FIPS 202 for every message and length.
* **C61** `aes.rs` computes AES-128 and AES-192 of FIPS 197 for every key and block, and decryption inverts encryption; with
  keys of 32 bytes it computes another cipher than AES-256.
* **C62** The modes ECB, CBC, CFB, OFB and CTR of `aes.rs` for messages of any length, against SP 800-38A; round trips.
* **C63** `gcm.rs` computes GCM (SP 800-38D) for messages in any number of pieces; round trips; what debug builds and keys of other lengths do; `hex2bytes`.
* **C64** `ntt` and `intt` of `nhs.rs` are the transforms for `Z_q[X]/(X^1024+1)`, without overflow; products.
* **C65** The encodings of `nhs.rs`: 14-bit and 3-bit packing, compression within 768, and the vote that decodes key bits.
* **C66** `server_1`, `client` and `server_2` of `nhs.rs`: the messages and keys, when they panic, and when the keys agree.
* **C67** HMAC, KDF1, KDF2 and PBKDF2 of `secp256k1/ecdh.rs`: the first and third are right, the others only in part.
* **C68** `cbc_iv0_encrypt` is CBC with PKCS #7 padding; `cbc_iv0_decrypt` loses the last incomplete block.
* **C69** The constants of `secp256k1/rom.rs`, the order of the group, the generator.
* **C70** Arithmetic of points on secp256k1: addition, multiplication by a window method, sums of two multiples.
* **C71** Octet strings of points on secp256k1: exact decoding, panics, round trip in both forms.
* **C72** `key_pair_generate` and `public_key_validate` of `secp256k1/ecdh.rs`.
* **C73** Diffie-Hellman (`ecpsvdp_dh`): exact results, agreement, refusal of every string that is no point.
* **C74** `ecpsp_dsa` returns ECDSA signatures and nothing else, and when it does not return.
* **C75** `ecpvp_dsa` accepts exactly the ECDSA signatures; signing and verifying; malleability; unknown hash names.
* **C76** ECIES of `secp256k1/ecdh.rs`: encryption is right, decryption refuses what it should but mangles the end.
* **C77** What `{:?}` prints for keys, signatures and aggregates; a secret key prints as its bytes.
* **C78** The number functions nothing calls: general shifts, `invmod2m`, `random`, `DBIG::nbits`, `to_string`, `split`.
* **C79** Differential addition (`dadd`) on Montgomery curves over the field, with all exceptional cases.
* **C80** Parameters of BLS12-383: the polynomials of the family, primality, the Montgomery constants, the orders of the generators.
* **C81** Fields of BLS12-383: exact arithmetic without overflow in `FP` and `FP2` with the excess bound `2^23`, quadratic character, roots.
* **C82** Groups of BLS12-383: addition, doubling, negation, tests, affine form and multiplication by numbers, on the curve and the twist.
* **C83** Extension fields of BLS12-383 of degree 4 and 12: exact arithmetic without overflow, powers, Frobenius, square roots.
* **C84** Pairing of BLS12-383: orders of the groups, Miller's algorithm and final exponentiation, bilinearity, non-degeneracy, infinity.
* **C85** Joint multiplication on BLS12-383, and `g1mul`, `g2mul`, `gtpow` with endomorphisms.
* **C86** Double pairing of BLS12-383: the product of two pairings with one final exponentiation.
* **C87** Strings of points and field elements of BLS12-383.
* **C88** Maps from strings to the groups of BLS12-383, and `pinmul`. The shortcut on the twist multiplies by `3(u²-1)h₂` at every point;
  the factors of `h₂` are not known here, so the proof shows that `ψ` is `a + bω` with `a² - ab + b² = p`: the degrees of the multiples of
  the generic point (`Proof/Manin`), their derivatives (`Proof/ManinFrob`), a division in the ring of `ω` (`Proof/B383/Clear`).
* **C89** Compressed powers on BLS12-383, and `pinpow`.
* **C90** M-Pin authentication on BLS12-383: what the server accepts, honest runs, factors.
* **C91** M-Pin's common keys on BLS12-383.
* **C92** The search for the error of a PIN on BLS12-383.
* **C93** `encoding` and `decoding` of points of BLS12-383 as pairs of numbers.
* **C94** Shares of secrets and random scalars in M-Pin.
* **C95** Shares of secrets and random scalars in M-Pin on BLS12-383.
* **C96** Mapping strings to secp256k1, the ladder and the endomorphism.
* **C97** Differential addition in secp256k1.
* **C98** The other number functions and the printed forms of secp256k1.
* **C99** Signatures whose order does not divide `r`.
* **C100** The verification functions agree with each other.
* **C101** Strings whose message point is infinity.
* **C102** Related messages of the pre-hashed functions share or transfer their signatures.
* **C103** The sign bit of keys and signatures on the wire.
* **C104** What the verdict on an aggregate says about its members.

## What the proofs turned up in the code

1. `calc_a_flag` drops a carry, so the sign bit is not the documented one for a range of ordinates; some
   ordinates and their negatives encode to the same string (C17, C19).
2. Decoders accept non-canonical coordinates and do not check the subgroup (C22, C34). A key plus a point
   of small order verifies the same signatures (`C06_key_plus_small_order`).
3. `FP2::sqrt` answers false for squares that lie in the base field but have no root there (C33).
4. `FP::redc` gives p, not 0, for nonzero multiples of p; encodings of points with a zero coordinate
   component depend on the representation (`C24_zero_abscissa_exception`).
5. `ate` with an infinite first argument gives 1 unless the abscissa of the second is 0, and 0 then (C32).
   With an infinite second argument the code has no test for infinity; the result is 1 only because the
   values stay in a subfield killed by the final exponentiation (`Proof/Degenerate`).
6. `BIG::isunity` is always false (its loop covers limb 0).
7. `Signature::verify` normalises neither the signature nor the key.
8. Hashing picks the ordinate that is no square in the base field when the imaginary part is 0 (C27).
9. The bit counter of HASH256 overflows for messages longer than 2^29 - 9 bytes (`C35_too_long`).
10. The key at infinity accepts the signature at infinity for every message, in particular the empty
    aggregate verifies with the empty aggregate key (C40); rogue keys work (C39), since there is no proof of
    possession.
11. Properties whose first wording was false and was corrected: C17, C24, C32.
12. `BIG::invmodp` never ends for an argument that shares a factor with the modulus, 0 included (C41);
    `modneg` of 0 is the modulus itself.
13. `g1mul` is wrong outside the subgroup of order r, for example the negative of the right point for
    (0, 2) and the square of the curve parameter (`C43_outside`); so it must not be used for subgroup checks.
    `g1mul` and `g2mul` are right for all scalars at the points of order dividing r only, and `gtpow` on the cyclotomic subgroup
    at the elements of such order only (`C43_exact`, `C44_exact`, `C45_exact`, and C85 for BLS12-383).
14. `hash384.rs` line 92 adds the words of the message schedule with `+` where `hash512.rs` has `wrapping_add`:
    a debug build panics on ordinary messages (`C46_sha384_debug_panics`).
15. AMCL's compressed string of infinity (C48) is the one of a finite point of order 3: `ECP::new()` becomes
    03 00…00, which decodes to (0, -2).
16. `ECP2::frombytes` accepts coordinates that are not reduced (`C50_malleable`) and does not check the subgroup.
17. `FP12::compow` never ends for the exponents divisible by p mod r, for example r - |x|, and `xtr_pow2` never ends
    if an exponent is 0 (`C52_hangs`). For the exponent 0 `compow` and `xtr_pow` compute the trace of the power
    2^350 (`C52_zero`).
18. M-Pin's `server_2` does not check that the points it gets have order r (`C55_malleable`).
19. M-Pin's `client_1` with a date and no permit adds the multiple by the PIN twice (`C55_no_permit`).
20. M-Pin's `client_key` does not come to an end if `ρ + h` modulo r is a positive multiple of `p mod r`
    (`C56_client_key_hangs`), takes the power 2^350 for the power 0 (`C56_client_key_zero`), and reduces the PIN modulo 2^14
    where `client_1` reduces it modulo 10000 (`C56_client_key`).
21. `kangaroo` also stops when the wild kangaroo meets the inverse of the trap. There `e f^(dm+dn) = 1`, but the answer
    is `dn - dm`, which is never right (`C57_second`). For PINs of four digits this needs a trap at a distance below
    10000, where the mean distance is about 20000 (`C57_pin`).
22. `FP4::sqrt` returns `true` with 0 for the elements of the subfield for which `FP2::sqrt` finds no root, such as
    `1 + i = V²`: `FP2::sqrt` clears its argument when it fails, and the code then divides 0 (`C59_fp4_sqrt_subfield`).
    Outside the subfield it answers `false` for some squares, such as `(1 + V)²`. Nothing calls it.
23. `SHA3::shake` with an output length of 0 writes one byte to the buffer, and panics if the buffer is empty
    (`C60_shake_nothing`).
24. The key schedule of `aes.rs` lacks the step of FIPS 197 for keys of eight words (`SubWord` when `i mod 8 = 4`). With
    32-byte keys all four bytes of the word 12 of the expanded key are wrong for every key
    (`C61_eight_words_differ`), and the example C.3 of the standard comes out as another block (`C61_example`).
25. `AES::init` divides the key length by four and ignores the remainder: the lengths 17 to 19, 25 to 27 and 33 to 35
    are accepted (`C61_aes`, `C61_init_refuses`).
26. `AES::increment` adds 1 to a byte with overflow checks: in a debug build the CTR modes panic as soon as the first byte of
    the counter is 255 (`C62_ctr_debug`). In a release build the counter is counted with its first byte as the
    least significant (`C62_ctr`), other than in the appendix B.1 of SP 800-38A.
27. `AES::encrypt` with a mode that is none of the constants (such as 4) leaves the plaintext in the buffer and returns 0
    (`C62_other`).
28. `AES::end` clears only the words that the last `init` wrote: 16 words of an earlier expanded 32-byte key survive
    (`C62_end_leaves`).
29. `GCM::gf2mul` computes `(!c)+1` on `u32`, which overflows for `c = 0`: in a debug build GCM panics at the first block of
    header, ciphertext or lengths unless all 128 bits of the hash state are 1 (`C63_debug`, `C63_debug_finish`,
    `C63_debug_header`, `C63_debug_empty`). In a release build the result is right.
30. `GCM::init` ignores the result of `AES::init`: with a key of a length other than 16, 24 or 32 it encrypts with one round
    of AES with round keys 0, so that ciphertext and tag do not depend on the key (`C63_keyed_bad`, `C63_bad_length`).
31. With a key of 32 bytes the result is not AES-256-GCM (`C63_not_aes256`), by finding 24.
32. `GCM::finish(false)` returns the tag zero for every message (`C63_finish_zero`).
33. `hex2bytes` turns an invalid first digit into 0 but drops the first digit if the second one is invalid (`C63_hex`).
34. `nhs.rs` takes a 31-bit word modulo `q` for each public coefficient (`parse`), where the NewHope papers reject words of 16
    bits: the messages are not those of other implementations. Nothing confirms the key: with large noise the two sides
    end with different keys without notice (`C65_errors` and its example, `C66_agreement`).
35. `kdf1` of `ecdh.rs` leaves the number 0 out of the first block, so it is not KDF1 (`C67_kdf1_iff`, `C67_kdf1_wrong`).
36. `pbkdf2` of `ecdh.rs` hashes the 64 bytes of its buffer from the second iteration on, also if the hash value has 32 or
    48 bytes, and keeps only 32 bytes of each block: with SHA-256 and more than one iteration it is not PBKDF2
    (`C67_pbkdf2_wrong`); with SHA-384 and SHA-512 longer keys are not filled (`C67_pbkdf2_unfilled`). Salts of more than
    32 bytes panic (`C67_pbkdf2_salt`).
37. `cbc_iv0_decrypt` pushes `buff[i]` with a fixed `i`: the bytes after the complete blocks of a message come back as
    copies of the padding byte (`C68_roundtrip`, `C68_roundtrip_iff`). So ECIES does not return most messages.
38. `cbc_iv0_encrypt` ignores that `init` refuses a key: with keys of other lengths the ciphertext does not depend on the
    key (`C68_bad_key`).
39. `key_pair_generate` of `ecdh.rs` does not exclude the secret 0; the public key is then the string of no point, which
    `public_key_validate` refuses (`C72_generated_valid`).
40. `ecpsp_dsa` of `ecdh.rs` never ends if the random mask is 0: it inverts 0 (`C74_stuck`). It ignores an unknown hash
    name and signs the number 0 (`C74_sign`).
41. `ecpvp_dsa` of `ecdh.rs` accepts `(r, n - s)` with `(r, s)` (`C75_malleable`), as ECDSA does.
42. With a hash name other than 32, 48 and 64 `ecpvp_dsa` reports no error and verifies the number 0: the message has no
    influence, and anyone can make a signature from the public key (`C75_unknown_hash`, `C75_unknown_forgery`).
43. `ecies_encrypt` followed by `ecies_decrypt` returns a message with a wrong end, unless its length is a multiple of 16
    (`C76_roundtrip`, `C76_message_returns`; the cause is finding 37).
44. `ecies_decrypt` ignores that `hmac` refuses tags of less than 4 bytes: with such a tag, also an empty one, every padded
    ciphertext is accepted (`C76_short_tag`). Tags of more than 32 bytes, which `ecies_encrypt` writes, make it panic, and so
    do compressed points `v` (`C76_decrypt_bad`).
45. `fmt::Debug` of `SecretKey`, and with it the derived one of `Keypair`, prints the whole secret key in hexadecimal
    (`C77_secret_bytes`, `C77_keypair`).
46. A zero coordinate of a point may print as the field prime `p` (`C77_public_key`, `C77_signature`), so one point can
    have two printed forms; this cannot happen for the keys the crate makes.
47. `BIG::invmod2m` does not reduce its result: the inverse of 1 modulo `2^384` comes out as `2^384 + 1`
    (`C78_invmod2m_one`). The product is still 1 modulo `2^384`.
48. `DBIG::split(n)` only looks at `n mod 58`, so it is right for positions inside limb 6 only (`C78_split_mod`). "Keep
    lower half" holds for the lower seven limbs; the upper seven keep their old contents (`C78_split`).
49. `DBIG::to_string` of 0 is the empty string (`C78_to_string_empty`).
50. `ECP::dadd` returns `0 : 0`, which stands for no point, if the difference of the two points has abscissa 0
    (`C79_dadd_zero`).
51. The defects of the arithmetic of BLS12-381 that do not depend on constants are in BLS12-383 too, with proofs of their own:
    `FP4::sqrt` returns `true` with 0 for squares such as `1 + i` (C83), and the pairing of two points at infinity, or of infinity
    with `(0, √15)`, is 0 (C84).
52. The encodings of BLS12-383 share the defects of those of BLS12-381. In `G1` the compressed string of infinity decodes to
    one of the finite points `(0, ±√15)`. A representation of such a point with nonzero limbs for 0 is written with the
    coordinate `p` and comes back as infinity. In `G2` and `FP12` adding `p` to a coordinate goes unnoticed (C87).
53. `FP12::compow` of BLS12-383 does not come to an end for the exponent `r - 1`, that is for the inverse: `p mod r` is the
    parameter `x` of the curve, and `x` divides `r - 1` (C89).
54. The faults of M-Pin in 18 - 20 and in `kangaroo` are also in the copy for BLS12-383 (C90 - C92). There `client_key` does
    not come to an end if `ρ + h` is `x` modulo r, a number of 65 bits.
55. `BIG::invmod2m` of secp256k1 returns `2^256 + 1` for 1: `mod2m` cuts limbs that still carry, and the carry comes
    back in `norm` (`C98_invmod2m_one`).
56. Since signatures are not checked for the subgroup, a key may accept several signatures of one message. Every point of
    the twist, of any order, is accepted for exactly one key of the subgroup (`C99_one_key`), which then also accepts a
    point of the subgroup (`C99_two_signatures`); for some key there are at least `h2`, a number of 507 bits
    (`C99_many_signatures`).
57. `verify_multiple` and `verify` differ for a message whose point is infinity: a key and its negative, one after the other,
    are accepted with the signature at infinity, but their sum is not (`C100_merge_infinity`). For all other messages the
    two agree (`C100_same_message`).
58. `map_to_g2` does not exclude infinity. For two strings of 48 bytes, the abscissa of a point of order 13, it returns
    infinity (`C101_infinity`). Every key then makes the same signature, infinity, and the 96 bytes `c0 00 … 00` are
    accepted for all public keys by `verify_hashed` (`C101_on_the_wire`).
59. The pre-hashed functions take an abscissa that the caller can choose, and some choices are related. If no usable point has
    the abscissa, the strings for the next abscissa have the same signatures (`C102_neighbours`; 0 and 1 are an example). If one has it, then multiplying the
    abscissa and the signature by a cube root of unity gives a signature of the new strings without the key (`C102_forgery`).
    So callers must hash before they call them.
60. There is nothing that ties a signature to the sign of the key: whoever changes the sign bit in a compressed key and in a
    compressed signature gets a pair with the same verdict for every message (`C103_both`). Changing one of the two makes an accepted
    signature a rejected one (`C103_one`), also outside the subgroup.
61. An accepted aggregate says nothing about its single signatures: two signatures that `verify` rejects can be off by opposite
    points, and the aggregate is accepted, for one message (`C104_cancel`) and for different ones (`C104_multiple_cancel`). The
    verdict determines that of a single signature only when all others are known to be good (`C104_all_but_one`).

## Wrong programs

`seeded/LOG.jsonl` records edits of the model (in a scratch copy), the claim each edit breaks and the
theorems whose proof then failed.
