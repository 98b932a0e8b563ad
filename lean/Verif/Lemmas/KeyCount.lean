/-
Helper lemmas for key detection: counting keys in a map, segment starts.
-/
import Verif.Lemmas.KeyDet

namespace Verif.KeyDet
open Verif Verif.Keys F32

theorem countKey_keys (k : Key) (c : F32) : ∀ m : List (Key × ℕ × F32),
    (countKey k c m).map Prod.fst = if k ∈ m.map Prod.fst then m.map Prod.fst else m.map Prod.fst ++ [k]
  | [] => by simp [countKey]
  | p :: m => by
    unfold countKey
    by_cases h : p.1 = k
    · rw [if_pos h]; simp [h]
    · rw [if_neg h, List.map_cons, countKey_keys k c m]
      simp only [List.map_cons, List.mem_cons]
      have h' : ¬ k = p.1 := fun e => h e.symm
      by_cases hk : k ∈ m.map Prod.fst
      · rw [if_pos hk, if_pos (Or.inr hk)]
      · rw [if_neg hk, if_neg (by rintro (h1 | h1); exacts [h' h1, hk h1])]; rfl

theorem countKey_mem (k : Key) (c : F32) : ∀ (m : List (Key × ℕ × F32)), (m.map Prod.fst).Nodup → ∀ e ∈ countKey k c m,
    (e ∈ m ∧ e.1 ≠ k) ∨ (∃ x ∈ m, x.1 = k ∧ e = (k, x.2.1 + 1, x.2.2 + c)) ∨ (k ∉ m.map Prod.fst ∧ e = (k, 1, 0 + c))
  | [], _, e, he => by
    right; right
    simpa [countKey] using he
  | p :: m, hnd, e, he => by
    rw [List.map_cons, List.nodup_cons] at hnd
    unfold countKey at he
    by_cases h : p.1 = k
    · rw [if_pos h] at he
      rcases List.mem_cons.1 he with rfl | he
      · right; left; exact ⟨p, by simp, h, rfl⟩
      · left
        refine ⟨by simp [he], ?_⟩
        intro hek; apply hnd.1; rw [h, ← hek]; exact List.mem_map_of_mem he
    · rw [if_neg h] at he
      rcases List.mem_cons.1 he with rfl | he
      · left; exact ⟨by simp, h⟩
      · rcases countKey_mem k c m hnd.2 e he with h1 | ⟨x, hx, h2, h3⟩ | ⟨h1, h2⟩
        · left; exact ⟨by simp [h1.1], h1.2⟩
        · right; left; exact ⟨x, by simp [hx], h2, h3⟩
        · right; right
          refine ⟨?_, h2⟩
          simp only [List.map_cons, List.mem_cons, not_or]
          exact ⟨fun e => h e.symm, h1⟩

/-- the map after counting `l`: one entry per key that occurs, with its number of occurrences and the sum of its values -/
structure Counted (m : List (Key × ℕ × F32)) (l : List (Key × F32)) : Prop where
  nodup : (m.map Prod.fst).Nodup
  count : ∀ e ∈ m, e.2.1 = (l.filter (fun p => decide (p.1 = e.1))).length
  sum : ∀ e ∈ m, e.2.2 = F32.sum ((l.filter (fun p => decide (p.1 = e.1))).map Prod.snd)
  pos : ∀ e ∈ m, 0 < e.2.1
  all : ∀ k, k ∈ m.map Prod.fst ↔ k ∈ l.map Prod.fst

theorem Counted.step {m : List (Key × ℕ × F32)} {l : List (Key × F32)} (h : Counted m l) (k : Key) (c : F32) :
    Counted (countKey k c m) (l ++ [(k, c)]) := by
  have hkeys := countKey_keys k c m
  have hfil : ∀ k', (l ++ [(k, c)]).filter (fun p => decide (p.1 = k')) =
      l.filter (fun p => decide (p.1 = k')) ++ if k = k' then [(k, c)] else [] := by
    intro k'; rw [List.filter_append]; by_cases e : k = k' <;> simp [e]
  have hempty : k ∉ m.map Prod.fst → l.filter (fun p => decide (p.1 = k)) = [] := by
    intro hk
    rw [List.filter_eq_nil_iff]
    intro p hp hpk
    apply hk
    rw [h.all]
    have : p.1 = k := by simpa using hpk
    rw [← this]; exact List.mem_map_of_mem hp
  have hsum : ∀ (x : List F32) (y : F32), F32.sum (x ++ [y]) = F32.sum x + y := by
    intro x y; unfold F32.sum; rw [List.foldl_append]; rfl
  refine ⟨?_, ?_, ?_, ?_, ?_⟩
  · rw [hkeys]
    split_ifs with hk
    · exact h.nodup
    · rw [List.nodup_append]
      refine ⟨h.nodup, by simp, ?_⟩
      intro a ha b hb hab
      have hb : b = k := by simpa using hb
      rw [hab, hb] at ha; exact hk ha
  · intro e he
    rw [hfil]
    rcases countKey_mem k c m h.nodup e he with h1 | ⟨x, hx, h2, rfl⟩ | ⟨h1, rfl⟩
    · rw [if_neg (fun e => h1.2 e.symm), List.append_nil]; exact h.count e h1.1
    · simp only [if_pos, List.length_append, List.length_singleton]
      rw [h.count x hx, h2]
    · simp only [if_pos, List.length_append, List.length_singleton]
      rw [hempty h1]; simp
  · intro e he
    rw [hfil]
    rcases countKey_mem k c m h.nodup e he with h1 | ⟨x, hx, h2, rfl⟩ | ⟨h1, rfl⟩
    · rw [if_neg (fun e => h1.2 e.symm), List.append_nil]; exact h.sum e h1.1
    · simp only [if_pos, List.map_append, List.map_cons, List.map_nil]
      rw [hsum, h.sum x hx, h2]
    · simp only [if_pos, List.map_append, List.map_cons, List.map_nil]
      rw [hempty h1, hsum]; rfl
  · intro e he
    rcases countKey_mem k c m h.nodup e he with h1 | ⟨x, hx, h2, rfl⟩ | ⟨h1, rfl⟩
    · exact h.pos e h1.1
    · exact Nat.succ_pos _
    · exact Nat.one_pos
  · intro k'
    rw [hkeys, List.map_append, List.mem_append]
    split_ifs with hk
    · rw [h.all]
      constructor
      · intro hm; exact Or.inl hm
      · rintro (hm | hm)
        · exact hm
        · have : k' = k := by simpa using hm
          rw [this]; exact (h.all k).1 hk
    · rw [List.mem_append, h.all]; simp

theorem counted_fold {α} (f : α → Key × F32) : ∀ (l : List α) (m : List (Key × ℕ × F32)) (d : List (Key × F32)), Counted m d →
    Counted (l.foldl (fun m a => countKey (f a).1 (f a).2 m) m) (d ++ l.map f)
  | [], m, d, h => by simpa using h
  | a :: l, m, d, h => by
    rw [List.foldl_cons, List.map_cons, List.append_cons]
    exact counted_fold f l _ _ (h.step _ _)

theorem counted_nil : Counted [] [] := ⟨by simp, by simp, by simp, by simp, by simp⟩

/-- `max_by`/`max_by_key` over a list: a maximal element, of the list (the comparison need only be good on `P`) -/
theorem foldMaxBy_spec {α} (P : α → Prop) (gt : α → α → Bool) (le : α → α → Prop) (hrefl : ∀ a, P a → le a a)
    (htr : ∀ a b c, P a → P b → P c → le a b → le b c → le a c)
    (h1 : ∀ a b, P a → P b → gt a b = true → le b a) (h2 : ∀ a b, P a → P b → gt a b = false → le a b) :
    ∀ (l : List α) (b : α), (∀ x ∈ b :: l, P x) →
    let r := l.foldl (fun m x => if gt m x then m else x) b
    (r = b ∨ r ∈ l) ∧ le b r ∧ ∀ x ∈ l, le x r
  | [], b, hP => ⟨Or.inl rfl, hrefl b (hP b (by simp)), by simp⟩
  | x :: l, b, hP => by
    intro r
    have Pb := hP b (by simp)
    have Px := hP x (by simp)
    by_cases hc : gt b x = true
    · have hr : r = l.foldl (fun m x => if gt m x then m else x) b := by
        show List.foldl _ _ _ = _; rw [List.foldl_cons, if_pos hc]
      have := foldMaxBy_spec P gt le hrefl htr h1 h2 l b (fun y hy => hP y (by
        rcases List.mem_cons.1 hy with rfl | hy
        · simp
        · simp [hy]))
      rw [← hr] at this
      have Pr : P r := by
        rcases this.1 with h | h
        · rw [h]; exact Pb
        · exact hP r (by simp [h])
      refine ⟨?_, this.2.1, ?_⟩
      · rcases this.1 with h | h
        · left; exact h
        · right; simp [h]
      · intro y hy
        rcases List.mem_cons.1 hy with rfl | hy
        · exact htr _ _ _ Px Pb Pr (h1 _ _ Pb Px hc) this.2.1
        · exact this.2.2 y hy
    · have hr : r = l.foldl (fun m x => if gt m x then m else x) x := by
        show List.foldl _ _ _ = _; rw [List.foldl_cons, if_neg hc]
      have := foldMaxBy_spec P gt le hrefl htr h1 h2 l x (fun y hy => hP y (List.mem_cons_of_mem _ hy))
      rw [← hr] at this
      have Pr : P r := by
        rcases this.1 with h | h
        · rw [h]; exact Px
        · exact hP r (by simp [h])
      have hbx := h2 b x Pb Px (by simpa using hc)
      refine ⟨?_, htr _ _ _ Pb Px Pr hbx this.2.1, ?_⟩
      · right
        rcases this.1 with h | h
        · rw [h]; simp
        · simp [h]
      · intro y hy
        rcases List.mem_cons.1 hy with rfl | hy
        · exact this.2.1
        · exact this.2.2 y hy

/-! ### segments -/

theorem mem_segStarts {n len hop s : ℕ} (hh : 0 < hop) : s ∈ segStarts n len hop ↔ s + len ≤ n ∧ hop ∣ s := by
  unfold segStarts
  split_ifs with h
  · rw [List.mem_map]
    constructor
    · rintro ⟨i, hi, rfl⟩
      rw [List.mem_range] at hi
      refine ⟨?_, Dvd.intro_left i rfl⟩
      have : i ≤ (n - len) / hop := by omega
      have := (Nat.le_div_iff_mul_le hh).1 this
      omega
    · rintro ⟨h1, ⟨i, rfl⟩⟩
      refine ⟨i, ?_, Nat.mul_comm _ _⟩
      rw [List.mem_range]
      have : i ≤ (n - len) / hop := by
        rw [Nat.le_div_iff_mul_le hh, Nat.mul_comm]; omega
      omega
  · simp only [List.not_mem_nil, false_iff, not_and]
    intro h1; omega

theorem segStarts_sorted {n len hop : ℕ} (hh : 0 < hop) : (segStarts n len hop).Pairwise (· < ·) := by
  unfold segStarts
  split_ifs
  · rw [List.pairwise_map]
    refine List.pairwise_lt_range.imp (fun {a b} hab => ?_)
    exact Nat.mul_lt_mul_of_pos_right hab hh
  · exact List.Pairwise.nil

end Verif.KeyDet
