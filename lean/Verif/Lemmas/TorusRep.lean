import Verif.Lemmas.Torus

/-!
# Representations of the 3x3 torus group
-/

namespace ED

open GroupAlg Spec

variable {A : Type} [Ring A] [Algebra ℂ A]

/-- The element with code `x`. -/
def torusRho (R S X Y : A) (x : ℕ) : A :=
  X ^ (x / 24) * Y ^ (x / 8 % 3) * R ^ (x / 2 % 4) * S ^ (x % 2)

/-- The relations of the group for either orientation of the rotation. -/
structure TorusRel (o : Bool) (R S X Y : A) : Prop where
  dih : Dihedral 4 R S
  x : X ^ 3 = 1
  y : Y ^ 3 = 1
  xy : Commute X Y
  rot : ∀ c d, R * (X ^ c * Y ^ d) = (if o then X ^ (2 * d) * Y ^ c else X ^ d * Y ^ (2 * c)) * R
  refl : ∀ c d, S * (X ^ c * Y ^ d) = X ^ (2 * c) * Y ^ d * S

private theorem semiconj_pow {R X Z : A} (h : R * X = Z * R) (c : ℕ) : R * X ^ c = Z ^ c * R :=
  (SemiconjBy.pow_right (show SemiconjBy R X Z from h) c)

theorem torusRel_ccw {R S X Y : A} (h : Torus3 R S X Y) : TorusRel true R S X Y := by
  have hxy : Commute X Y := h.xy
  refine ⟨h.dihedral, h.x, h.y, hxy, fun c d => ?_, fun c d => ?_⟩
  · rw [if_pos rfl, ← mul_assoc, semiconj_pow h.rx, mul_assoc, semiconj_pow h.ry, ← mul_assoc,
      ← pow_mul, ((hxy.pow_pow (2 * d) c).eq)]
  · rw [← mul_assoc, semiconj_pow h.sx, mul_assoc, semiconj_pow h.sy, ← mul_assoc, ← pow_mul]

theorem torusRel_cw {R S X Y : A} (h : Torus3cw R S X Y) : TorusRel false R S X Y := by
  have hxy : Commute X Y := h.xy
  refine ⟨h.dihedral, h.x, h.y, hxy, fun c d => ?_, fun c d => ?_⟩
  · rw [if_neg (by decide), ← mul_assoc, semiconj_pow h.rx, mul_assoc, semiconj_pow h.ry,
      ← mul_assoc, ← pow_mul, ((hxy.pow_pow d (2 * c)).eq)]
  · rw [← mul_assoc, semiconj_pow h.sx, mul_assoc, semiconj_pow h.sy, ← mul_assoc, ← pow_mul]

theorem torusRel_rot {o : Bool} {R S X Y : A} (h : TorusRel o R S X Y) (r : ℕ) (p : ℕ × ℕ) :
    R ^ r * (X ^ p.1 * Y ^ p.2) =
      X ^ (torusRot o r p).1 * Y ^ (torusRot o r p).2 * R ^ r := by
  induction r with
  | zero => simp [torusRot]
  | succ r ih =>
    rw [pow_succ', mul_assoc, ih, ← mul_assoc, h.rot, torusRot]
    cases o <;> simp [mul_assoc]

theorem torusRel_refl {o : Bool} {R S X Y : A} (h : TorusRel o R S X Y) (s c d : ℕ) (hs : s < 2) :
    S ^ s * (X ^ c * Y ^ d) = X ^ (if s = 0 then c else 2 * c) * Y ^ d * S ^ s := by
  interval_cases s
  · simp
  · simpa using h.refl c d

theorem torusRho_mul {o : Bool} {R S X Y : A} (h : TorusRel o R S X Y) (x y : ℕ) (hx : x < 72)
    (hy : y < 72) :
    torusRho R S X Y x * torusRho R S X Y y = torusRho R S X Y (torusMul o x y) := by
  have hS : ∀ k, S ^ (k % 2) = S ^ k := pow_mod_of_pow_eq_one (by rw [pow_two, h.dih.refl])
  have hR : ∀ k, R ^ (k % 4) = R ^ k := pow_mod_of_pow_eq_one h.dih.rot
  have hX : ∀ k, X ^ (k % 3) = X ^ k := pow_mod_of_pow_eq_one h.x
  have hY : ∀ k, Y ^ (k % 3) = Y ^ k := pow_mod_of_pow_eq_one h.y
  have hcode : ∀ a b r s, torusRho R S X Y (torusCode a b r s) = X ^ a * Y ^ b * R ^ r * S ^ s := by
    intro a b r s
    unfold torusRho torusCode
    have e1 : ((a % 3 * 3 + b % 3) * 4 + r % 4) * 2 + s % 2 =
      24 * (a % 3) + 8 * (b % 3) + 2 * (r % 4) + s % 2 := by ring
    rw [e1]
    have ha := Nat.mod_lt a (show 0 < 3 by norm_num)
    have hb := Nat.mod_lt b (show 0 < 3 by norm_num)
    have hr := Nat.mod_lt r (show 0 < 4 by norm_num)
    have hs := Nat.mod_lt s (show 0 < 2 by norm_num)
    rw [show (24 * (a % 3) + 8 * (b % 3) + 2 * (r % 4) + s % 2) / 24 = a % 3 by omega,
      show (24 * (a % 3) + 8 * (b % 3) + 2 * (r % 4) + s % 2) / 8 % 3 = b % 3 by omega,
      show (24 * (a % 3) + 8 * (b % 3) + 2 * (r % 4) + s % 2) / 2 % 4 = r % 4 by omega,
      show (24 * (a % 3) + 8 * (b % 3) + 2 * (r % 4) + s % 2) % 2 = s % 2 by omega,
      hX, hY, hR, hS]
  unfold torusMul
  simp only
  rw [hcode]
  unfold torusRho
  generalize hs : x % 2 = s
  have hs2 : s < 2 := by omega
  have hswap : ∀ k, S ^ s * R ^ k = R ^ (if s = 0 then k else 3 * k) * S ^ s := by
    intro k
    interval_cases s
    · simp
    · simpa using dih_swap h.dih k
  have hrot := torusRel_rot h (x / 2 % 4) (if s = 0 then y / 24 else 2 * (y / 24), y / 8 % 3)
  generalize torusRot o (x / 2 % 4) (if s = 0 then y / 24 else 2 * (y / 24), y / 8 % 3) = t at *
  simp only at hrot
  generalize x / 24 = a
  generalize x / 8 % 3 = b
  generalize x / 2 % 4 = r at *
  have hrefl := torusRel_refl h s (y / 24) (y / 8 % 3) hs2
  generalize y / 24 = c at *
  generalize y / 8 % 3 = d at *
  generalize y / 2 % 4 = k
  generalize y % 2 = u
  calc X ^ a * Y ^ b * R ^ r * S ^ s * (X ^ c * Y ^ d * R ^ k * S ^ u)
      = X ^ a * Y ^ b * R ^ r * (S ^ s * (X ^ c * Y ^ d)) * R ^ k * S ^ u := by
        simp only [mul_assoc]
    _ = X ^ a * Y ^ b * (R ^ r * (X ^ (if s = 0 then c else 2 * c) * Y ^ d)) * (S ^ s * R ^ k) *
          S ^ u := by rw [hrefl]; simp only [mul_assoc]
    _ = X ^ a * (Y ^ b * X ^ t.1) * Y ^ t.2 * R ^ r * R ^ (if s = 0 then k else 3 * k) * S ^ s *
          S ^ u := by rw [hrot, hswap]; simp only [mul_assoc]
    _ = _ := by
      rw [← (h.xy.pow_pow t.1 b).eq, pow_add, pow_add, pow_add, pow_add]
      simp only [mul_assoc]

theorem torus_rep {o : Bool} {R S X Y : A} (h : TorusRel o R S X Y) :
    (torusTables o).Rep torusF (Int.castRingHom ℂ) (torusRho R S X Y) torusTable
      (torusClasses R S X Y) := by
  refine ⟨torus_base o, by simp, by simp [torusTables], fun x hx y hy => torusRho_mul h x y hx hy,
    by simp [torusRho], ?_, ?_⟩
  · simp [torusTable, torusTables, torusRows]
  · simp [torusClasses, torusTables, torusCodes, torusRho]

end ED
