import Verif.Model.KeyDet
import Mathlib.Tactic.IntervalCases

/-! Property theorems for claim C44: the key templates. -/

namespace Verif.Props

open Verif Verif.KeyDet F32

/-- `v` is `u` moved up by `k` semitones: what `u` gives to pitch class `s`, `v` gives to `s + k`. -/
def MovedUp (k : ℕ) (u v : List F32) : Prop :=
  u.length = 12 ∧ v.length = 12 ∧ ∀ s, s < 12 → v[(s + k) % 12]? = u[s]?

instance (k : ℕ) (u v : List F32) : Decidable (MovedUp k u v) :=
  inferInstanceAs (Decidable (_ ∧ _ ∧ ∀ s, s < 12 → _))

/-- **C44** (rotation; partial: every template except the B major template of the Krumhansl-Kessler family): the
template of key `k` is exactly the C template of its family and mode moved up by `k` semitones. -/
theorem C44_rotation_partial (k : Fin 12) :
    (k ≠ 11 → MovedUp k (krumhanslKessler.major 0) (krumhanslKessler.major k)) ∧
    MovedUp k (krumhanslKessler.minor 0) (krumhanslKessler.minor k) ∧
    MovedUp k (temperley.major 0) (temperley.major k) ∧
    MovedUp k (temperley.minor 0) (temperley.minor k) := by
  revert k; decide +kernel

/-- **C44 violated** (exact rotation): the B major template is normalised by a norm that differs in the last bit, because
the squares are added in another order; its tonic weight is not C major's. -/
theorem C44_violated : ¬ MovedUp 11 (krumhanslKessler.major 0) (krumhanslKessler.major 11) ∧
    (krumhanslKessler.major 11)[11]? ≠ (krumhanslKessler.major 0)[0]? := by decide +kernel

/-- **C44** (B major): the exception is off by at most 2^-24 in every entry. -/
theorem C44_rotation_close (s : ℕ) (hs : s < 12) :
    |(((krumhanslKessler.major 11).getD ((s + 11) % 12) nan).val) - (((krumhanslKessler.major 0).getD s nan).val)| ≤
      1 / 2 ^ 24 := by
  revert s; decide +kernel

/-- **C44** (weights): every entry of every template is a positive number below 1, the squares of its entries add up
to 1 within 2^-22 in exact arithmetic, and no pitch class weighs more than the tonic. -/
theorem C44_weights (k : Fin 12) (v : List F32)
    (hv : v ∈ [krumhanslKessler.major k, krumhanslKessler.minor k, temperley.major k, temperley.minor k]) :
    v.length = 12 ∧ (∀ x ∈ v, x.isFinite = true ∧ 0 < x ∧ x < 1) ∧ |(v.map (fun x => x.val * x.val)).sum - 1| ≤ 1 / 2 ^ 22 ∧
    ∀ x ∈ v, x ≤ v.getD k nan := by
  revert v k; decide +kernel

/-- **C44** (modes): in the major templates the fifth weighs more than every class but the tonic and the third, and the major third
more than the minor third; in the minor templates the minor third weighs more than the major third. -/
theorem C44_modes (k : Fin 12) (T : Templates) (hT : T = krumhanslKessler ∨ T = temperley) :
    (T.major k).getD ((k + 3) % 12) nan < (T.major k).getD ((k + 4) % 12) nan ∧
    (T.minor k).getD ((k + 4) % 12) nan < (T.minor k).getD ((k + 3) % 12) nan ∧
    (∀ d : Fin 12, d ≠ 0 → d ≠ 4 → d ≠ 7 → (T.major k).getD ((k + d) % 12) nan < (T.major k).getD ((k + 7) % 12) nan) := by
  rcases hT with rfl | rfl
  · revert k; decide +kernel
  · revert k; decide +kernel

/-- **C44** (index access): `get_template` numbers the majors 0-11 and the minors 12-23 and panics beyond; the modal
accessors wrap around. -/
theorem C44_index (T : Templates) (i : ℕ) :
    (∀ k : Fin 12, T.get k = .ok (T.major k) ∧ T.get (12 + k) = .ok (T.minor k)) ∧ (24 ≤ i → T.get i = R.panic) ∧
    T.getMajor (i + 12) = T.getMajor i ∧ T.getMinor (i + 12) = T.getMinor i ∧
    (∀ k : Fin 12, T.getMajor k = T.major k ∧ T.getMinor k = T.minor k) := by
  refine ⟨fun k => ⟨?_, ?_⟩, fun h => ?_, ?_, ?_, fun k => ⟨?_, ?_⟩⟩
  · unfold Templates.get; rw [dif_pos k.2]
  · unfold Templates.get
    rw [dif_neg (by omega), dif_pos (by omega)]
    congr 2; apply Fin.ext; simp
  · unfold Templates.get; rw [dif_neg (by omega), dif_neg (by omega)]
  · unfold Templates.getMajor; congr 1; apply Fin.ext; simp
  · unfold Templates.getMinor; congr 1; apply Fin.ext; simp
  · unfold Templates.getMajor; congr 1; apply Fin.ext; exact Nat.mod_eq_of_lt k.2
  · unfold Templates.getMinor; congr 1; apply Fin.ext; exact Nat.mod_eq_of_lt k.2

theorem perm_of_moved {α} {k : ℕ} {u v : List α} (hu : u.length = 12) (hv : v.length = 12)
    (h : ∀ s, s < 12 → v[(s + k) % 12]? = u[s]?) : v.Perm u := by
  have hk : ∀ s, s < 12 → v[(s + k % 12) % 12]? = u[s]? := by
    intro s hs; rw [← h s hs]; congr 1; omega
  have hr : k % 12 < 12 := Nat.mod_lt _ (by norm_num)
  generalize k % 12 = r at hk hr
  have e : v = u.drop (12 - r) ++ u.take (12 - r) := by
    apply List.ext_getElem?
    intro i
    by_cases hi : i < 12
    · by_cases hir : i < r
      · have := hk (i + (12 - r)) (by omega)
        rw [show (i + (12 - r) + r) % 12 = i by omega] at this
        rw [this, List.getElem?_append_left (by simp [hu]; omega), List.getElem?_drop]
        congr 1; omega
      · have := hk (i - r) (by omega)
        rw [show (i - r + r) % 12 = i by omega] at this
        rw [this, List.getElem?_append_right (by simp [hu]; omega)]
        simp only [List.length_drop, hu]
        rw [show i - (12 - (12 - r)) = i - r by omega, List.getElem?_take_of_lt (by omega)]
    · rw [List.getElem?_eq_none (by omega), List.getElem?_eq_none (by simp [hu]; omega)]
  rw [e]
  exact List.perm_append_comm.trans (by rw [List.take_append_drop])

/-- **C44** (transposition): matching a chroma vector moved up by `k` against the template moved up by `k` adds the same
twelve products as matching the original, in another order. -/
theorem C44_transposition (k : ℕ) (c c' t t' : List F32) (hc : MovedUp k c c') (ht : MovedUp k t t') :
    (List.zipWith (· * ·) c' t').Perm (List.zipWith (· * ·) c t) ∧ dot c' t' = F32.sum (List.zipWith (· * ·) c' t') := by
  refine ⟨?_, rfl⟩
  obtain ⟨c1, c2, c3⟩ := hc
  obtain ⟨t1, t2, t3⟩ := ht
  apply perm_of_moved (k := k)
  · simp [c1, t1]
  · simp [c2, t2]
  · intro s hs
    have hm : (s + k) % 12 < 12 := Nat.mod_lt _ (by norm_num)
    have h1 := c3 s hs
    have h2 := t3 s hs
    rw [List.getElem?_eq_getElem (by omega), List.getElem?_eq_getElem (by omega)] at h1 h2
    rw [List.getElem?_eq_getElem (by simp [c2, t2]; omega), List.getElem?_eq_getElem (by simp [c1, t1]; omega),
      List.getElem_zipWith, List.getElem_zipWith, Option.some.inj h1, Option.some.inj h2]

/-- non-vacuity: a C major triad moved up to E major, with the templates of C and E major -/
example : MovedUp 4 [1, 0, 0, 0, 1, 0, 0, 1, 0, 0, 0, 0] [0, 0, 0, 0, 1, 0, 0, 0, 1, 0, 0, 1] ∧
    MovedUp 4 (krumhanslKessler.major 0) (krumhanslKessler.major 4) := by decide +kernel

end Verif.Props
