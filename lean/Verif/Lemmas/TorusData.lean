import Verif.Lemmas.PointGroups

/-!
# The 72-element symmetry group of the 3x3 torus, in numbers

The element `X^a Y^b R^r S^s` has the code `((3a + b) 4 + r) 2 + s`. The literals in `torusLdiv` and
`torusChars` are lookup tables that make the evaluation fast; what they contain is checked below against
the multiplication rule and against the characters.
-/

namespace ED

open GroupAlg

/-- Digit `k` of `n` in base 128. -/
def dig7 (n k : ℕ) : ℕ := Nat.mod (Nat.div n (Nat.pow 128 k)) 128

/-- Digit `k` of `n` in base 8. -/
def dig3 (n k : ℕ) : ℕ := Nat.mod (Nat.div n (Nat.pow 8 k)) 8

/-- Code of `X^a Y^b R^r S^s`. -/
def torusCode (a b r s : ℕ) : ℕ := (((a % 3) * 3 + b % 3) * 4 + r % 4) * 2 + s % 2

/-- Exponents of the translation `R (X^c Y^d) R⁻¹`: counter-clockwise for `o = true`, clockwise for
`o = false`. -/
def torusRot (o : Bool) : ℕ → ℕ × ℕ → ℕ × ℕ
  | 0, p => p
  | r + 1, p => let q := torusRot o r p; if o then (2 * q.2, q.1) else (q.2, 2 * q.1)

/-- Multiplication of codes. -/
def torusMul (o : Bool) (x y : ℕ) : ℕ :=
  let t := torusRot o (x / 2 % 4) (if x % 2 = 0 then y / 24 else 2 * (y / 24), y / 8 % 3)
  torusCode (x / 24 + t.1) (x / 8 % 3 + t.2)
    (x / 2 % 4 + if x % 2 = 0 then y / 2 % 4 else 3 * (y / 2 % 4)) (x % 2 + y % 2)

/-- The classes used by the library as lists of codes. -/
def torusCodes : List (List ℕ) := [
  [0],
  [3, 7, 43, 59, 39, 71],
  [4, 28, 52, 12, 20, 36, 44, 60, 68],
  [1, 5, 25, 49, 13, 21],
  [2, 6, 26, 50, 10, 18, 34, 42, 58, 66, 30, 54, 14, 22, 38, 46, 62, 70],
  [32, 56, 40, 64],
  [27, 51, 11, 19, 35, 67, 31, 55, 15, 23, 47, 63],
  [9, 17, 33, 41, 57, 65, 29, 53, 37, 45, 61, 69],
  [24, 48, 8, 16]]

/-- The character table used by the library. -/
def torusRows : List (List ℤ) := [
  [1, 1, 1, 1, 1, 1, 1, 1, 1],
  [1, -1, 1, -1, 1, 1, -1, -1, 1],
  [1, -1, 1, 1, -1, 1, -1, 1, 1],
  [1, 1, 1, -1, -1, 1, 1, -1, 1],
  [2, 0, -2, 0, 0, 2, 0, 0, 2],
  [4, -2, 0, 0, 0, 1, 1, 0, -2],
  [4, 0, 0, -2, 0, -2, 0, 1, 1],
  [4, 0, 0, 2, 0, -2, 0, -1, 1],
  [4, 2, 0, 0, 0, 1, -1, 0, -2]]

/-- Character plus two for every group element, in base 8. -/
def torusChars : List ℕ := [
  0x6db6db6db6db6db6db6db6db6db6db6db6db6db6db6db6db6db6db,
  0x2cb2cb2cb2cb2cb2cb2cb2cb2cb2cb2cb2cb2cb2cb2cb2cb2cb2cb,
  0x25b25b25b25b25b25b25b25b25b25b25b25b25b25b25b25b25b25b,
  0x64b64b64b64b64b64b64b64b64b64b64b64b64b64b64b64b64b64b,
  0x490494490494490494490494490494490494490494490494490494,
  0x92693692093692690692093092693692690692690692690092096,
  0x49a49849a49849a48349a49849a49849a48348249b48249b482486,
  0x48a48848a48848a4a348a48848a48848a4a34a248b4a248b4a24a6,
  0x892293292893292290292893892293292290292290292290892896]

/-- Rows of the left division table, in base 128, for the counter-clockwise group. -/
def ccwLdiv : List ℕ := [
  0x8f1a2c4870a0c07ef9ebc76e9cb86ed9ab466c98b05eb96ac56a94a84e992a446890a03e78e9c3668c982e58a9426488901e3868c16284880e182840608080,
  0x54ad62d5cbd429448d2254c9d021346ce1d3c7cc19850e2458d1e04174ede3d7cfdc3964cda356cdd831244ca152c5c811142c60d1c3c409040c2050c1c001,
  0x7af1dba72e1fbe4a911a242813a61a3058a122078e8b121c283023c65ab15aa52a17ae2a509922240b966ad19b262c1bb63a70d9a3260f9e0a101820200386,
  0x4895327408512378f5f3f70e5d3b183470f102450b58b572f50a552b891634781061432854b1720449133874f1f3064d1b68d5b3760c593308143070004103,
  0x46890a04e992a456a94a85eb96ac3668c983e78e9c76e9cb87ef9ebc870a0c08f1a2c466c98b06ed9ab416284881e3868c26488902e58a9406080800e18284,
  0x7cfdc3974ede3d8d1e041850e2456cdd83164cda354c9d021448d2255cbd42954ad62d3c7cc19346ce1d1c3c409142c60d2c5c811244ca150c1c001040c205,
  0x52a17ae5ab15aa83023c68b121c22240b962a5099242813a64a911a272e1fbe7af1dba122078e1a3058a3260f9e3a70d9a62c1bb66ad19b202003860a10182,
  0x8106143891634750a552b58b572f20449132854b1770e5d3b78f5f3f40851234895327102450b183470f60c593368d5b373064d1b3874f1f00041030814307,
  0x7ef9ebc76e9cb86ed9ab466c98b08f1a2c4870a0c04e992a446890a03e78e9c3668c985eb96ac56a94a81e3868c16284880e1828406080802e58a942648890,
  0x448d2254c9d021346ce1d3c7cc1954ad62d5cbd42974ede3d7cfdc3964cda356cdd831850e2458d1e041142c60d1c3c409040c2050c1c001244ca152c5c811,
  0x4a911a242813a61a3058a122078e7af1dba72e1fbe5ab15aa52a17ae2a509922240b968b121c283023c63a70d9a3260f9e0a1018202003866ad19b262c1bb6,
  0x78f5f3f70e5d3b183470f102450b48953274085123891634781061432854b17204491358b572f50a552b68d5b3760c5933081430700041033874f1f3064d1b,
  0x56a94a85eb96ac3668c983e78e9c46890a04e992a4870a0c08f1a2c466c98b06ed9ab476e9cb87ef9ebc26488902e58a9406080800e1828416284881e3868c,
  0x8d1e041850e2456cdd83164cda357cfdc3974ede3d5cbd42954ad62d3c7cc19346ce1d4c9d021448d2252c5c811244ca150c1c001040c2051c3c409142c60d,
  0x83023c68b121c22240b962a5099252a17ae5ab15aa72e1fbe7af1dba122078e1a3058a42813a64a911a262c1bb66ad19b202003860a101823260f9e3a70d9a,
  0x50a552b58b572f20449132854b178106143891634740851234895327102450b183470f70e5d3b78f5f3f3064d1b3874f1f0004103081430760c593368d5b37,
  0x6ed9ab466c98b08f1a2c4870a0c07ef9ebc76e9cb83e78e9c3668c985eb96ac56a94a84e992a446890a00e1828406080802e58a9426488901e3868c1628488,
  0x346ce1d3c7cc1954ad62d5cbd429448d2254c9d02164cda356cdd831850e2458d1e04174ede3d7cfdc39040c2050c1c001244ca152c5c811142c60d1c3c409,
  0x1a3058a122078e7af1dba72e1fbe4a911a242813a62a509922240b968b121c283023c65ab15aa52a17ae0a1018202003866ad19b262c1bb63a70d9a3260f9e,
  0x183470f102450b4895327408512378f5f3f70e5d3b2854b17204491358b572f50a552b89163478106143081430700041033874f1f3064d1b68d5b3760c5933,
  0x3668c983e78e9c46890a04e992a456a94a85eb96ac66c98b06ed9ab476e9cb87ef9ebc870a0c08f1a2c406080800e1828416284881e3868c26488902e58a94,
  0x6cdd83164cda357cfdc3974ede3d8d1e041850e2453c7cc19346ce1d4c9d021448d2255cbd42954ad62d0c1c001040c2051c3c409142c60d2c5c811244ca15,
  0x2240b962a5099252a17ae5ab15aa83023c68b121c2122078e1a3058a42813a64a911a272e1fbe7af1dba02003860a101823260f9e3a70d9a62c1bb66ad19b2,
  0x20449132854b178106143891634750a552b58b572f102450b183470f70e5d3b78f5f3f408512348953270004103081430760c593368d5b373064d1b3874f1f,
  0x5eb96ac56a94a84e992a446890a03e78e9c3668c982e58a9426488901e3868c16284880e1828406080808f1a2c4870a0c07ef9ebc76e9cb86ed9ab466c98b0,
  0x850e2458d1e04174ede3d7cfdc3964cda356cdd831244ca152c5c811142c60d1c3c409040c2050c1c00154ad62d5cbd429448d2254c9d021346ce1d3c7cc19,
  0x8b121c283023c65ab15aa52a17ae2a509922240b966ad19b262c1bb63a70d9a3260f9e0a1018202003867af1dba72e1fbe4a911a242813a61a3058a122078e,
  0x58b572f50a552b891634781061432854b1720449133874f1f3064d1b68d5b3760c5933081430700041034895327408512378f5f3f70e5d3b183470f102450b,
  0x76e9cb87ef9ebc870a0c08f1a2c466c98b06ed9ab416284881e3868c26488902e58a9406080800e1828446890a04e992a456a94a85eb96ac3668c983e78e9c,
  0x4c9d021448d2255cbd42954ad62d3c7cc19346ce1d1c3c409142c60d2c5c811244ca150c1c001040c2057cfdc3974ede3d8d1e041850e2456cdd83164cda35,
  0x42813a64a911a272e1fbe7af1dba122078e1a3058a3260f9e3a70d9a62c1bb66ad19b202003860a1018252a17ae5ab15aa83023c68b121c22240b962a50992,
  0x70e5d3b78f5f3f40851234895327102450b183470f60c593368d5b373064d1b3874f1f000410308143078106143891634750a552b58b572f20449132854b17,
  0x4e992a446890a03e78e9c3668c985eb96ac56a94a81e3868c16284880e1828406080802e58a9426488907ef9ebc76e9cb86ed9ab466c98b08f1a2c4870a0c0,
  0x74ede3d7cfdc3964cda356cdd831850e2458d1e041142c60d1c3c409040c2050c1c001244ca152c5c811448d2254c9d021346ce1d3c7cc1954ad62d5cbd429,
  0x5ab15aa52a17ae2a509922240b968b121c283023c63a70d9a3260f9e0a1018202003866ad19b262c1bb64a911a242813a61a3058a122078e7af1dba72e1fbe,
  0x891634781061432854b17204491358b572f50a552b68d5b3760c5933081430700041033874f1f3064d1b78f5f3f70e5d3b183470f102450b48953274085123,
  0x870a0c08f1a2c466c98b06ed9ab476e9cb87ef9ebc26488902e58a9406080800e1828416284881e3868c56a94a85eb96ac3668c983e78e9c46890a04e992a4,
  0x5cbd42954ad62d3c7cc19346ce1d4c9d021448d2252c5c811244ca150c1c001040c2051c3c409142c60d8d1e041850e2456cdd83164cda357cfdc3974ede3d,
  0x72e1fbe7af1dba122078e1a3058a42813a64a911a262c1bb66ad19b202003860a101823260f9e3a70d9a83023c68b121c22240b962a5099252a17ae5ab15aa,
  0x40851234895327102450b183470f70e5d3b78f5f3f3064d1b3874f1f0004103081430760c593368d5b3750a552b58b572f20449132854b1781061438916347,
  0x3e78e9c3668c985eb96ac56a94a84e992a446890a00e1828406080802e58a9426488901e3868c16284886ed9ab466c98b08f1a2c4870a0c07ef9ebc76e9cb8,
  0x64cda356cdd831850e2458d1e04174ede3d7cfdc39040c2050c1c001244ca152c5c811142c60d1c3c409346ce1d3c7cc1954ad62d5cbd429448d2254c9d021,
  0x2a509922240b968b121c283023c65ab15aa52a17ae0a1018202003866ad19b262c1bb63a70d9a3260f9e1a3058a122078e7af1dba72e1fbe4a911a242813a6,
  0x2854b17204491358b572f50a552b89163478106143081430700041033874f1f3064d1b68d5b3760c5933183470f102450b4895327408512378f5f3f70e5d3b,
  0x66c98b06ed9ab476e9cb87ef9ebc870a0c08f1a2c406080800e1828416284881e3868c26488902e58a943668c983e78e9c46890a04e992a456a94a85eb96ac,
  0x3c7cc19346ce1d4c9d021448d2255cbd42954ad62d0c1c001040c2051c3c409142c60d2c5c811244ca156cdd83164cda357cfdc3974ede3d8d1e041850e245,
  0x122078e1a3058a42813a64a911a272e1fbe7af1dba02003860a101823260f9e3a70d9a62c1bb66ad19b22240b962a5099252a17ae5ab15aa83023c68b121c2,
  0x102450b183470f70e5d3b78f5f3f408512348953270004103081430760c593368d5b373064d1b3874f1f20449132854b178106143891634750a552b58b572f,
  0x2e58a9426488901e3868c16284880e1828406080808f1a2c4870a0c07ef9ebc76e9cb86ed9ab466c98b05eb96ac56a94a84e992a446890a03e78e9c3668c98,
  0x244ca152c5c811142c60d1c3c409040c2050c1c00154ad62d5cbd429448d2254c9d021346ce1d3c7cc19850e2458d1e04174ede3d7cfdc3964cda356cdd831,
  0x6ad19b262c1bb63a70d9a3260f9e0a1018202003867af1dba72e1fbe4a911a242813a61a3058a122078e8b121c283023c65ab15aa52a17ae2a509922240b96,
  0x3874f1f3064d1b68d5b3760c5933081430700041034895327408512378f5f3f70e5d3b183470f102450b58b572f50a552b891634781061432854b172044913,
  0x16284881e3868c26488902e58a9406080800e1828446890a04e992a456a94a85eb96ac3668c983e78e9c76e9cb87ef9ebc870a0c08f1a2c466c98b06ed9ab4,
  0x1c3c409142c60d2c5c811244ca150c1c001040c2057cfdc3974ede3d8d1e041850e2456cdd83164cda354c9d021448d2255cbd42954ad62d3c7cc19346ce1d,
  0x3260f9e3a70d9a62c1bb66ad19b202003860a1018252a17ae5ab15aa83023c68b121c22240b962a5099242813a64a911a272e1fbe7af1dba122078e1a3058a,
  0x60c593368d5b373064d1b3874f1f000410308143078106143891634750a552b58b572f20449132854b1770e5d3b78f5f3f40851234895327102450b183470f,
  0x1e3868c16284880e1828406080802e58a9426488907ef9ebc76e9cb86ed9ab466c98b08f1a2c4870a0c04e992a446890a03e78e9c3668c985eb96ac56a94a8,
  0x142c60d1c3c409040c2050c1c001244ca152c5c811448d2254c9d021346ce1d3c7cc1954ad62d5cbd42974ede3d7cfdc3964cda356cdd831850e2458d1e041,
  0x3a70d9a3260f9e0a1018202003866ad19b262c1bb64a911a242813a61a3058a122078e7af1dba72e1fbe5ab15aa52a17ae2a509922240b968b121c283023c6,
  0x68d5b3760c5933081430700041033874f1f3064d1b78f5f3f70e5d3b183470f102450b48953274085123891634781061432854b17204491358b572f50a552b,
  0x26488902e58a9406080800e1828416284881e3868c56a94a85eb96ac3668c983e78e9c46890a04e992a4870a0c08f1a2c466c98b06ed9ab476e9cb87ef9ebc,
  0x2c5c811244ca150c1c001040c2051c3c409142c60d8d1e041850e2456cdd83164cda357cfdc3974ede3d5cbd42954ad62d3c7cc19346ce1d4c9d021448d225,
  0x62c1bb66ad19b202003860a101823260f9e3a70d9a83023c68b121c22240b962a5099252a17ae5ab15aa72e1fbe7af1dba122078e1a3058a42813a64a911a2,
  0x3064d1b3874f1f0004103081430760c593368d5b3750a552b58b572f20449132854b178106143891634740851234895327102450b183470f70e5d3b78f5f3f,
  0xe1828406080802e58a9426488901e3868c16284886ed9ab466c98b08f1a2c4870a0c07ef9ebc76e9cb83e78e9c3668c985eb96ac56a94a84e992a446890a0,
  0x40c2050c1c001244ca152c5c811142c60d1c3c409346ce1d3c7cc1954ad62d5cbd429448d2254c9d02164cda356cdd831850e2458d1e04174ede3d7cfdc39,
  0xa1018202003866ad19b262c1bb63a70d9a3260f9e1a3058a122078e7af1dba72e1fbe4a911a242813a62a509922240b968b121c283023c65ab15aa52a17ae,
  0x81430700041033874f1f3064d1b68d5b3760c5933183470f102450b4895327408512378f5f3f70e5d3b2854b17204491358b572f50a552b89163478106143,
  0x6080800e1828416284881e3868c26488902e58a943668c983e78e9c46890a04e992a456a94a85eb96ac66c98b06ed9ab476e9cb87ef9ebc870a0c08f1a2c4,
  0xc1c001040c2051c3c409142c60d2c5c811244ca156cdd83164cda357cfdc3974ede3d8d1e041850e2453c7cc19346ce1d4c9d021448d2255cbd42954ad62d,
  0x2003860a101823260f9e3a70d9a62c1bb66ad19b22240b962a5099252a17ae5ab15aa83023c68b121c2122078e1a3058a42813a64a911a272e1fbe7af1dba,
  0x4103081430760c593368d5b373064d1b3874f1f20449132854b178106143891634750a552b58b572f102450b183470f70e5d3b78f5f3f40851234895327]

/-- The same for the clockwise group. -/
def cwLdiv : List ℕ := [
  0x8f1a2c4870a0c07ef9ebc76e9cb86ed9ab466c98b05eb96ac56a94a84e992a446890a03e78e9c3668c982e58a9426488901e3868c16284880e182840608080,
  0x54ad62d5cbd429448d2254c9d021346ce1d3c7cc19850e2458d1e04174ede3d7cfdc3964cda356cdd831244ca152c5c811142c60d1c3c409040c2050c1c001,
  0x5ab15aa52a17ae8b121c283023c62a509922240b964a911a242813a67af1dba72e1fbe1a3058a122078e3a70d9a3260f9e6ad19b262c1bb60a101820200386,
  0x8916347810614358b572f50a552b2854b17204491378f5f3f70e5d3b48953274085123183470f102450b68d5b3760c59333874f1f3064d1b08143070004103,
  0x46890a04e992a456a94a85eb96ac3668c983e78e9c76e9cb87ef9ebc870a0c08f1a2c466c98b06ed9ab416284881e3868c26488902e58a9406080800e18284,
  0x7cfdc3974ede3d8d1e041850e2456cdd83164cda354c9d021448d2255cbd42954ad62d3c7cc19346ce1d1c3c409142c60d2c5c811244ca150c1c001040c205,
  0x72e1fbe7af1dba42813a64a911a2122078e1a3058a83023c68b121c252a17ae5ab15aa2240b962a5099262c1bb66ad19b23260f9e3a70d9a02003860a10182,
  0x4085123489532770e5d3b78f5f3f102450b183470f50a552b58b572f8106143891634720449132854b173064d1b3874f1f60c593368d5b3700041030814307,
  0x7ef9ebc76e9cb86ed9ab466c98b08f1a2c4870a0c04e992a446890a03e78e9c3668c985eb96ac56a94a81e3868c16284880e1828406080802e58a942648890,
  0x448d2254c9d021346ce1d3c7cc1954ad62d5cbd42974ede3d7cfdc3964cda356cdd831850e2458d1e041142c60d1c3c409040c2050c1c001244ca152c5c811,
  0x8b121c283023c62a509922240b965ab15aa52a17ae7af1dba72e1fbe1a3058a122078e4a911a242813a66ad19b262c1bb60a1018202003863a70d9a3260f9e,
  0x58b572f50a552b2854b1720449138916347810614348953274085123183470f102450b78f5f3f70e5d3b3874f1f3064d1b0814307000410368d5b3760c5933,
  0x56a94a85eb96ac3668c983e78e9c46890a04e992a4870a0c08f1a2c466c98b06ed9ab476e9cb87ef9ebc26488902e58a9406080800e1828416284881e3868c,
  0x8d1e041850e2456cdd83164cda357cfdc3974ede3d5cbd42954ad62d3c7cc19346ce1d4c9d021448d2252c5c811244ca150c1c001040c2051c3c409142c60d,
  0x42813a64a911a2122078e1a3058a72e1fbe7af1dba52a17ae5ab15aa2240b962a5099283023c68b121c23260f9e3a70d9a02003860a1018262c1bb66ad19b2,
  0x70e5d3b78f5f3f102450b183470f408512348953278106143891634720449132854b1750a552b58b572f60c593368d5b37000410308143073064d1b3874f1f,
  0x6ed9ab466c98b08f1a2c4870a0c07ef9ebc76e9cb83e78e9c3668c985eb96ac56a94a84e992a446890a00e1828406080802e58a9426488901e3868c1628488,
  0x346ce1d3c7cc1954ad62d5cbd429448d2254c9d02164cda356cdd831850e2458d1e04174ede3d7cfdc39040c2050c1c001244ca152c5c811142c60d1c3c409,
  0x2a509922240b965ab15aa52a17ae8b121c283023c61a3058a122078e4a911a242813a67af1dba72e1fbe0a1018202003863a70d9a3260f9e6ad19b262c1bb6,
  0x2854b1720449138916347810614358b572f50a552b183470f102450b78f5f3f70e5d3b489532740851230814307000410368d5b3760c59333874f1f3064d1b,
  0x3668c983e78e9c46890a04e992a456a94a85eb96ac66c98b06ed9ab476e9cb87ef9ebc870a0c08f1a2c406080800e1828416284881e3868c26488902e58a94,
  0x6cdd83164cda357cfdc3974ede3d8d1e041850e2453c7cc19346ce1d4c9d021448d2255cbd42954ad62d0c1c001040c2051c3c409142c60d2c5c811244ca15,
  0x122078e1a3058a72e1fbe7af1dba42813a64a911a22240b962a5099283023c68b121c252a17ae5ab15aa02003860a1018262c1bb66ad19b23260f9e3a70d9a,
  0x102450b183470f4085123489532770e5d3b78f5f3f20449132854b1750a552b58b572f81061438916347000410308143073064d1b3874f1f60c593368d5b37,
  0x5eb96ac56a94a84e992a446890a03e78e9c3668c982e58a9426488901e3868c16284880e1828406080808f1a2c4870a0c07ef9ebc76e9cb86ed9ab466c98b0,
  0x850e2458d1e04174ede3d7cfdc3964cda356cdd831244ca152c5c811142c60d1c3c409040c2050c1c00154ad62d5cbd429448d2254c9d021346ce1d3c7cc19,
  0x4a911a242813a67af1dba72e1fbe1a3058a122078e3a70d9a3260f9e6ad19b262c1bb60a1018202003865ab15aa52a17ae8b121c283023c62a509922240b96,
  0x78f5f3f70e5d3b48953274085123183470f102450b68d5b3760c59333874f1f3064d1b081430700041038916347810614358b572f50a552b2854b172044913,
  0x76e9cb87ef9ebc870a0c08f1a2c466c98b06ed9ab416284881e3868c26488902e58a9406080800e1828446890a04e992a456a94a85eb96ac3668c983e78e9c,
  0x4c9d021448d2255cbd42954ad62d3c7cc19346ce1d1c3c409142c60d2c5c811244ca150c1c001040c2057cfdc3974ede3d8d1e041850e2456cdd83164cda35,
  0x83023c68b121c252a17ae5ab15aa2240b962a5099262c1bb66ad19b23260f9e3a70d9a02003860a1018272e1fbe7af1dba42813a64a911a2122078e1a3058a,
  0x50a552b58b572f8106143891634720449132854b173064d1b3874f1f60c593368d5b37000410308143074085123489532770e5d3b78f5f3f102450b183470f,
  0x4e992a446890a03e78e9c3668c985eb96ac56a94a81e3868c16284880e1828406080802e58a9426488907ef9ebc76e9cb86ed9ab466c98b08f1a2c4870a0c0,
  0x74ede3d7cfdc3964cda356cdd831850e2458d1e041142c60d1c3c409040c2050c1c001244ca152c5c811448d2254c9d021346ce1d3c7cc1954ad62d5cbd429,
  0x7af1dba72e1fbe1a3058a122078e4a911a242813a66ad19b262c1bb60a1018202003863a70d9a3260f9e8b121c283023c62a509922240b965ab15aa52a17ae,
  0x48953274085123183470f102450b78f5f3f70e5d3b3874f1f3064d1b0814307000410368d5b3760c593358b572f50a552b2854b17204491389163478106143,
  0x870a0c08f1a2c466c98b06ed9ab476e9cb87ef9ebc26488902e58a9406080800e1828416284881e3868c56a94a85eb96ac3668c983e78e9c46890a04e992a4,
  0x5cbd42954ad62d3c7cc19346ce1d4c9d021448d2252c5c811244ca150c1c001040c2051c3c409142c60d8d1e041850e2456cdd83164cda357cfdc3974ede3d,
  0x52a17ae5ab15aa2240b962a5099283023c68b121c23260f9e3a70d9a02003860a1018262c1bb66ad19b242813a64a911a2122078e1a3058a72e1fbe7af1dba,
  0x8106143891634720449132854b1750a552b58b572f60c593368d5b37000410308143073064d1b3874f1f70e5d3b78f5f3f102450b183470f40851234895327,
  0x3e78e9c3668c985eb96ac56a94a84e992a446890a00e1828406080802e58a9426488901e3868c16284886ed9ab466c98b08f1a2c4870a0c07ef9ebc76e9cb8,
  0x64cda356cdd831850e2458d1e04174ede3d7cfdc39040c2050c1c001244ca152c5c811142c60d1c3c409346ce1d3c7cc1954ad62d5cbd429448d2254c9d021,
  0x1a3058a122078e4a911a242813a67af1dba72e1fbe0a1018202003863a70d9a3260f9e6ad19b262c1bb62a509922240b965ab15aa52a17ae8b121c283023c6,
  0x183470f102450b78f5f3f70e5d3b489532740851230814307000410368d5b3760c59333874f1f3064d1b2854b1720449138916347810614358b572f50a552b,
  0x66c98b06ed9ab476e9cb87ef9ebc870a0c08f1a2c406080800e1828416284881e3868c26488902e58a943668c983e78e9c46890a04e992a456a94a85eb96ac,
  0x3c7cc19346ce1d4c9d021448d2255cbd42954ad62d0c1c001040c2051c3c409142c60d2c5c811244ca156cdd83164cda357cfdc3974ede3d8d1e041850e245,
  0x2240b962a5099283023c68b121c252a17ae5ab15aa02003860a1018262c1bb66ad19b23260f9e3a70d9a122078e1a3058a72e1fbe7af1dba42813a64a911a2,
  0x20449132854b1750a552b58b572f81061438916347000410308143073064d1b3874f1f60c593368d5b37102450b183470f4085123489532770e5d3b78f5f3f,
  0x2e58a9426488901e3868c16284880e1828406080808f1a2c4870a0c07ef9ebc76e9cb86ed9ab466c98b05eb96ac56a94a84e992a446890a03e78e9c3668c98,
  0x244ca152c5c811142c60d1c3c409040c2050c1c00154ad62d5cbd429448d2254c9d021346ce1d3c7cc19850e2458d1e04174ede3d7cfdc3964cda356cdd831,
  0x3a70d9a3260f9e6ad19b262c1bb60a1018202003865ab15aa52a17ae8b121c283023c62a509922240b964a911a242813a67af1dba72e1fbe1a3058a122078e,
  0x68d5b3760c59333874f1f3064d1b081430700041038916347810614358b572f50a552b2854b17204491378f5f3f70e5d3b48953274085123183470f102450b,
  0x16284881e3868c26488902e58a9406080800e1828446890a04e992a456a94a85eb96ac3668c983e78e9c76e9cb87ef9ebc870a0c08f1a2c466c98b06ed9ab4,
  0x1c3c409142c60d2c5c811244ca150c1c001040c2057cfdc3974ede3d8d1e041850e2456cdd83164cda354c9d021448d2255cbd42954ad62d3c7cc19346ce1d,
  0x62c1bb66ad19b23260f9e3a70d9a02003860a1018272e1fbe7af1dba42813a64a911a2122078e1a3058a83023c68b121c252a17ae5ab15aa2240b962a50992,
  0x3064d1b3874f1f60c593368d5b37000410308143074085123489532770e5d3b78f5f3f102450b183470f50a552b58b572f8106143891634720449132854b17,
  0x1e3868c16284880e1828406080802e58a9426488907ef9ebc76e9cb86ed9ab466c98b08f1a2c4870a0c04e992a446890a03e78e9c3668c985eb96ac56a94a8,
  0x142c60d1c3c409040c2050c1c001244ca152c5c811448d2254c9d021346ce1d3c7cc1954ad62d5cbd42974ede3d7cfdc3964cda356cdd831850e2458d1e041,
  0x6ad19b262c1bb60a1018202003863a70d9a3260f9e8b121c283023c62a509922240b965ab15aa52a17ae7af1dba72e1fbe1a3058a122078e4a911a242813a6,
  0x3874f1f3064d1b0814307000410368d5b3760c593358b572f50a552b2854b1720449138916347810614348953274085123183470f102450b78f5f3f70e5d3b,
  0x26488902e58a9406080800e1828416284881e3868c56a94a85eb96ac3668c983e78e9c46890a04e992a4870a0c08f1a2c466c98b06ed9ab476e9cb87ef9ebc,
  0x2c5c811244ca150c1c001040c2051c3c409142c60d8d1e041850e2456cdd83164cda357cfdc3974ede3d5cbd42954ad62d3c7cc19346ce1d4c9d021448d225,
  0x3260f9e3a70d9a02003860a1018262c1bb66ad19b242813a64a911a2122078e1a3058a72e1fbe7af1dba52a17ae5ab15aa2240b962a5099283023c68b121c2,
  0x60c593368d5b37000410308143073064d1b3874f1f70e5d3b78f5f3f102450b183470f408512348953278106143891634720449132854b1750a552b58b572f,
  0xe1828406080802e58a9426488901e3868c16284886ed9ab466c98b08f1a2c4870a0c07ef9ebc76e9cb83e78e9c3668c985eb96ac56a94a84e992a446890a0,
  0x40c2050c1c001244ca152c5c811142c60d1c3c409346ce1d3c7cc1954ad62d5cbd429448d2254c9d02164cda356cdd831850e2458d1e04174ede3d7cfdc39,
  0xa1018202003863a70d9a3260f9e6ad19b262c1bb62a509922240b965ab15aa52a17ae8b121c283023c61a3058a122078e4a911a242813a67af1dba72e1fbe,
  0x814307000410368d5b3760c59333874f1f3064d1b2854b1720449138916347810614358b572f50a552b183470f102450b78f5f3f70e5d3b48953274085123,
  0x6080800e1828416284881e3868c26488902e58a943668c983e78e9c46890a04e992a456a94a85eb96ac66c98b06ed9ab476e9cb87ef9ebc870a0c08f1a2c4,
  0xc1c001040c2051c3c409142c60d2c5c811244ca156cdd83164cda357cfdc3974ede3d8d1e041850e2453c7cc19346ce1d4c9d021448d2255cbd42954ad62d,
  0x2003860a1018262c1bb66ad19b23260f9e3a70d9a122078e1a3058a72e1fbe7af1dba42813a64a911a22240b962a5099283023c68b121c252a17ae5ab15aa,
  0x410308143073064d1b3874f1f60c593368d5b37102450b183470f4085123489532770e5d3b78f5f3f20449132854b1750a552b58b572f81061438916347]

/-- Left division table. -/
def torusLdivRows (o : Bool) : List ℕ := if o then ccwLdiv else cwLdiv

/-- Left division of codes. -/
def torusLdiv (o : Bool) (x z : ℕ) : ℕ := dig7 ((torusLdivRows o).getD x 0) z

/-- Value of the character `i` on the element with code `x`. -/
def torusF (i x : ℕ) : ℤ := (dig3 (torusChars.getD i 0) x : ℤ) - 2

end ED
