/-
Shared vocabulary of the model: failures, checked indexing, sorting, external functions.
-/
import Verif.F32.Lemmas

namespace Verif

/-- Constructors of `AnalysisError` (src/error.rs lines 7-24); the message text is not modelled. -/
inductive ErrKind where
  | invalidInput | decoding | processing | notImplemented | numerical
deriving DecidableEq, Repr

/-- What a Rust call can do besides returning a value: return `Err`, panic, or (for loops that
are modelled with fuel because their termination is itself in question) not finish. -/
inductive Fail where
  | err (k : ErrKind)
  | panic
  | fuel
deriving DecidableEq, Repr

abbrev R (α : Type) := Except Fail α

namespace R
abbrev err {α} (k : ErrKind) : R α := .error (.err k)
abbrev panic {α} : R α := .error .panic
abbrev outOfFuel {α} : R α := .error .fuel

@[simp] theorem pure_eq_ok {α} (a : α) : (pure a : R α) = .ok a := rfl
@[simp] theorem ok_bind {α β} (a : α) (f : α → R β) : ((Except.ok a : R α) >>= f) = f a := rfl
@[simp] theorem error_bind {α β} (e : Fail) (f : α → R β) : ((Except.error e : R α) >>= f) = .error e := rfl
@[simp] theorem panic_bind {α β} (f : α → R β) : ((R.panic : R α) >>= f) = R.panic := rfl
@[simp] theorem err_bind {α β} (k) (f : α → R β) : ((R.err k : R α) >>= f) = R.err k := rfl

theorem bind_eq_ok {α β} {x : R α} {f : α → R β} {b : β} :
    (x >>= f) = .ok b ↔ ∃ a, x = .ok a ∧ f a = .ok b := by
  cases x <;> simp

@[simp] theorem err_ne_ok {α} {k} {a : α} : (R.err k : R α) ≠ .ok a := by simp [R.err]
@[simp] theorem panic_ne_ok {α} {a : α} : (R.panic : R α) ≠ .ok a := by simp [R.panic]
@[simp] theorem fuel_ne_ok {α} {a : α} : (R.outOfFuel : R α) ≠ .ok a := by simp [R.outOfFuel]
@[simp] theorem err_ne_panic {α} {k} : (R.err k : R α) ≠ R.panic := by simp [R.err, R.panic]
@[simp] theorem ok_ne_panic {α} {a : α} : (.ok a : R α) ≠ R.panic := by simp [R.panic]
end R

/-- `v[i]`: panics when out of bounds. -/
def idx {α} (l : List α) (i : ℕ) : R α :=
  match l[i]? with
  | some a => .ok a
  | none => R.panic

theorem idx_ok {α} {l : List α} {i : ℕ} (h : i < l.length) : idx l i = .ok l[i] := by
  simp [idx, h]

theorem idx_eq_ok {α} {l : List α} {i : ℕ} {a : α} : idx l i = .ok a ↔ l[i]? = some a := by
  unfold idx; split <;> simp_all

/-- `&v[s..e]`: panics when `s > e` or `e > len`. -/
def slice {α} (l : List α) (s e : ℕ) : R (List α) :=
  if s ≤ e ∧ e ≤ l.length then .ok ((l.drop s).take (e - s)) else R.panic

theorem slice_ok {α} {l : List α} {s e : ℕ} (h1 : s ≤ e) (h2 : e ≤ l.length) :
    slice l s e = .ok ((l.drop s).take (e - s)) := by simp [slice, h1, h2]

/-- Insert into a list before the first element that is not smaller. -/
def insertBy {α} (le : α → α → Bool) (a : α) : List α → List α
  | [] => [a]
  | b :: l => if le a b then a :: b :: l else b :: insertBy le a l

/-- `slice::sort_by` (stable).  `le a b` is `cmp(a, b) != Greater`.  For a total preorder the
stable sort is unique, so this is Rust's result whatever algorithm `std` uses. -/
def rsort {α} (le : α → α → Bool) (l : List α) : List α := l.foldr (insertBy le) []

/-- `sort_by(|a, b| b.key.partial_cmp(&a.key).unwrap_or(Equal))` -/
def sortDesc {α} (key : α → F32) (l : List α) : List α :=
  rsort (fun a b => decide (¬ key a < key b)) l

/-- `sort_by(|a, b| a.key.partial_cmp(&b.key).unwrap_or(Equal))` -/
def sortAsc {α} (key : α → F32) (l : List α) : List α :=
  rsort (fun a b => decide (¬ key b < key a)) l

/-- Some comparison in a sort of two or more elements meets a NaN: every element of a list of
length at least two is compared at least once, so `partial_cmp(..).unwrap()` panics. -/
def sortMeetsNaN {α} (key : α → F32) (l : List α) : Bool :=
  decide (2 ≤ l.length) && l.any (fun a => (key a).isNaN)

/-- `sort_by(|a, b| a.key.partial_cmp(&b.key).unwrap())` -/
def sortAscP {α} (key : α → F32) (l : List α) : R (List α) :=
  if sortMeetsNaN key l then R.panic else .ok (sortAsc key l)

/-- `sort_by(|a, b| b.key.partial_cmp(&a.key).unwrap())` -/
def sortDescP {α} (key : α → F32) (l : List α) : R (List α) :=
  if sortMeetsNaN key l then R.panic else .ok (sortDesc key l)

/-- `sort_unstable` on integers (equal integers are indistinguishable). -/
def sortNat (l : List ℕ) : List ℕ := rsort (fun a b => decide (a ≤ b)) l

/-- `Vec::dedup`: drop an element equal to its predecessor. -/
def dedupAdj {α} [DecidableEq α] : List α → List α
  | [] => []
  | [a] => [a]
  | a :: b :: l => if a = b then dedupAdj (b :: l) else a :: dedupAdj (b :: l)

/-- Transcendental functions of the platform's libm, as parameters: theorems quantify over all
of them. -/
structure Libm where
  powf : F32 → F32 → F32
  log10 : F32 → F32
  log2 : F32 → F32
  ln : F32 → F32
  exp : F32 → F32
  exp2 : F32 → F32
  sin : F32 → F32
  cos : F32 → F32
  atan2 : F32 → F32 → F32

/-- A concrete (crude) libm, used only in non-vacuity examples and in witnesses. -/
def Libm.demo : Libm where
  powf := fun _ _ => 0.01
  log10 := fun x => x
  log2 := fun x => x
  ln := fun x => x
  exp := fun x => if x ≤ 0 then (if x < -2 then 0 else 0.5) else 1
  exp2 := fun x => 1 + x
  sin := fun _ => 0
  cos := fun _ => 1
  atan2 := fun _ _ => 0

/-- `f32::clamp` with run-time bounds: panics unless `lo <= hi`. -/
def clampP (x lo hi : F32) : R F32 := if lo ≤ hi then .ok (F32.clamp x lo hi) else R.panic

/-- `n as i32` for `usize`: the low 32 bits, as a signed number -/
def asI32 (n : ℕ) : ℤ := ((n : ℤ) + 2 ^ 31) % 2 ^ 32 - 2 ^ 31

/-! ### Lemmas on sorting -/

section sort
variable {α : Type} {le : α → α → Bool}

theorem insertBy_perm (a : α) (l : List α) : (insertBy le a l).Perm (a :: l) := by
  induction l with
  | nil => exact List.Perm.refl _
  | cons b l ih =>
    unfold insertBy; split
    · exact List.Perm.refl _
    · exact (ih.cons b).trans (List.Perm.swap a b l)

theorem rsort_perm (l : List α) : (rsort le l).Perm l := by
  induction l with
  | nil => exact List.Perm.refl _
  | cons a l ih => exact (insertBy_perm a _).trans (ih.cons a)

@[simp] theorem mem_rsort {l : List α} {a : α} : a ∈ rsort le l ↔ a ∈ l := (rsort_perm l).mem_iff
@[simp] theorem length_rsort (l : List α) : (rsort le l).length = l.length := (rsort_perm l).length_eq

theorem insertBy_pairwise {a : α} {l : List α}
    (htot : ∀ b ∈ l, le a b = true ∨ le b a = true)
    (htr : ∀ b ∈ l, ∀ c ∈ l, le a b = true → le b c = true → le a c = true)
    (h : l.Pairwise (fun x y => le x y = true)) :
    (insertBy le a l).Pairwise (fun x y => le x y = true) := by
  induction l with
  | nil => simp [insertBy]
  | cons b l ih =>
    rw [List.pairwise_cons] at h
    unfold insertBy; split
    · rename_i hab
      rw [List.pairwise_cons]
      refine ⟨?_, List.pairwise_cons.2 h⟩
      intro c hc
      rcases List.mem_cons.1 hc with rfl | hc'
      · exact hab
      · exact htr b (by simp) c (by simp [hc']) hab (h.1 c hc')
    · rename_i hab
      rw [List.pairwise_cons]
      refine ⟨?_, ih (fun c hc => htot c (by simp [hc]))
        (fun c hc d hd => htr c (by simp [hc]) d (by simp [hd])) h.2⟩
      intro c hc
      rcases List.mem_cons.1 ((insertBy_perm a l).mem_iff.1 hc) with rfl | hc'
      · rcases htot b (by simp) with h1 | h1
        · exact absurd h1 hab
        · exact h1
      · exact h.1 c hc'

theorem rsort_pairwise {l : List α}
    (htot : ∀ a ∈ l, ∀ b ∈ l, le a b = true ∨ le b a = true)
    (htr : ∀ a ∈ l, ∀ b ∈ l, ∀ c ∈ l, le a b = true → le b c = true → le a c = true) :
    (rsort le l).Pairwise (fun x y => le x y = true) := by
  induction l with
  | nil => simp [rsort]
  | cons a l ih =>
    show (insertBy le a (rsort le l)).Pairwise _
    apply insertBy_pairwise
    · intro b hb; rw [mem_rsort] at hb; exact htot a (by simp) b (by simp [hb])
    · intro b hb c hc
      rw [mem_rsort] at hb hc
      exact htr a (by simp) b (by simp [hb]) c (by simp [hc])
    · exact ih (fun x hx y hy => htot x (by simp [hx]) y (by simp [hy]))
        (fun x hx y hy z hz => htr x (by simp [hx]) y (by simp [hy]) z (by simp [hz]))

theorem rsort_eq_self {l : List α} (h : l.Pairwise (fun x y => le x y = true)) : rsort le l = l := by
  induction l with
  | nil => rfl
  | cons a l ih =>
    rw [List.pairwise_cons] at h
    show insertBy le a (rsort le l) = _
    rw [ih h.2]
    cases l with
    | nil => rfl
    | cons b l => unfold insertBy; rw [if_pos (h.1 b (by simp))]

end sort

section sortF
variable {α : Type} {key : α → F32}

theorem sortDesc_perm (l : List α) : (sortDesc key l).Perm l := rsort_perm l
theorem sortAsc_perm (l : List α) : (sortAsc key l).Perm l := rsort_perm l
@[simp] theorem mem_sortDesc {l : List α} {a : α} : a ∈ sortDesc key l ↔ a ∈ l := mem_rsort
@[simp] theorem mem_sortAsc {l : List α} {a : α} : a ∈ sortAsc key l ↔ a ∈ l := mem_rsort
@[simp] theorem length_sortDesc (l : List α) : (sortDesc key l).length = l.length := length_rsort l
@[simp] theorem length_sortAsc (l : List α) : (sortAsc key l).length = l.length := length_rsort l

theorem sortDesc_pairwise {l : List α} (h : ∀ a ∈ l, key a ≠ .nan) :
    (sortDesc key l).Pairwise (fun a b => key b ≤ key a) := by
  have := rsort_pairwise (le := fun a b => decide (¬ key a < key b)) (l := l)
    (fun a ha b hb => by
      by_cases hab : key a < key b
      · right; simp only [decide_eq_true_eq]; exact F32.not_lt_of_le (F32.le_of_lt hab)
      · left; simp [hab])
    (fun a ha b hb c hc h1 h2 => by
      simp only [decide_eq_true_eq] at *
      have h3 := F32.le_of_not_lt (h b hb) (h a ha) h1
      have h4 := F32.le_of_not_lt (h c hc) (h b hb) h2
      exact F32.not_lt_of_le (F32.le_trans h4 h3))
  refine List.Pairwise.imp_of_mem ?_ this
  intro a b ha hb hab
  rw [mem_sortDesc] at ha hb
  simp only [decide_eq_true_eq] at hab
  exact F32.le_of_not_lt (h b hb) (h a ha) hab

theorem sortAsc_pairwise {l : List α} (h : ∀ a ∈ l, key a ≠ .nan) :
    (sortAsc key l).Pairwise (fun a b => key a ≤ key b) := by
  have := rsort_pairwise (le := fun a b => decide (¬ key b < key a)) (l := l)
    (fun a ha b hb => by
      by_cases hab : key b < key a
      · right; simp only [decide_eq_true_eq]; exact F32.not_lt_of_le (F32.le_of_lt hab)
      · left; simp [hab])
    (fun a ha b hb c hc h1 h2 => by
      simp only [decide_eq_true_eq] at *
      have h3 := F32.le_of_not_lt (h a ha) (h b hb) h1
      have h4 := F32.le_of_not_lt (h b hb) (h c hc) h2
      exact F32.not_lt_of_le (F32.le_trans h3 h4))
  refine List.Pairwise.imp_of_mem ?_ this
  intro a b ha hb hab
  rw [mem_sortAsc] at ha hb
  simp only [decide_eq_true_eq] at hab
  exact F32.le_of_not_lt (h a ha) (h b hb) hab

theorem sortMeetsNaN_false {l : List α} (h : ∀ a ∈ l, key a ≠ .nan) : sortMeetsNaN key l = false := by
  unfold sortMeetsNaN
  rw [Bool.and_eq_false_iff]; right
  rw [List.any_eq_false]; intro a ha
  rw [F32.isNaN_iff]; exact h a ha

end sortF

theorem sortNat_pairwise (l : List ℕ) : (sortNat l).Pairwise (· ≤ ·) := by
  have := rsort_pairwise (le := fun a b : ℕ => decide (a ≤ b)) (l := l)
    (fun a _ b _ => by simp only [decide_eq_true_eq]; omega)
    (fun a _ b _ c _ => by simp only [decide_eq_true_eq]; omega)
  simpa [sortNat] using this
theorem sortNat_perm (l : List ℕ) : (sortNat l).Perm l := rsort_perm l
@[simp] theorem mem_sortNat {l : List ℕ} {a : ℕ} : a ∈ sortNat l ↔ a ∈ l := mem_rsort

theorem mem_dedupAdj {α} [DecidableEq α] {l : List α} {a : α} : a ∈ dedupAdj l ↔ a ∈ l := by
  fun_induction dedupAdj l with
  | case1 => simp
  | case2 => simp
  | case3 b l ih => rw [ih]; simp
  | case4 b c l hne ih => simp [ih]

theorem dedupAdj_strict {l : List ℕ} (h : l.Pairwise (· ≤ ·)) : (dedupAdj l).Pairwise (· < ·) := by
  fun_induction dedupAdj l with
  | case1 => simp
  | case2 => simp
  | case3 b l ih => exact ih (List.pairwise_cons.1 h).2
  | case4 b c l hne ih =>
    rw [List.pairwise_cons] at h ⊢
    refine ⟨?_, ih h.2⟩
    intro x hx
    rw [mem_dedupAdj] at hx
    have hbc := h.1 c (by simp)
    rcases List.mem_cons.1 hx with rfl | hx'
    · omega
    · have := (List.pairwise_cons.1 h.2).1 x hx'
      omega

end Verif
