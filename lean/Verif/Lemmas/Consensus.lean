/-
Helper lemmas for onset consensus voting.
-/
import Verif.Model.Consensus
import Verif.F32.More

namespace Verif.Consensus
open Verif Verif.F32

theorem asI32_small {n : ℕ} (h : n < 2 ^ 31) : asI32 n = n := by unfold asI32; omega

theorem near_small {tol a b : ℕ} (ha : a < 2 ^ 31) (hb : b < 2 ^ 31) (h : b ≤ a) :
    near tol a b = .ok (decide (a ≤ b + tol)) := by
  unfold near
  dsimp only
  rw [asI32_small ha, asI32_small hb, if_neg (by omega)]
  congr 2
  rw [eq_iff_iff]; omega

theorem hits_small {tol : ℕ} {o : Tagged} {c : List Tagged} (ho : o.sample < 2 ^ 31)
    (h : ∀ e ∈ c, e.sample ≤ o.sample) :
    hits tol o c = .ok (c.any (fun e => decide (o.sample ≤ e.sample + tol))) := by
  induction c with
  | nil => rfl
  | cons e es ih =>
    have he := h e (by simp)
    unfold hits
    rw [near_small ho (by omega) he, R.ok_bind, List.any_cons]
    by_cases hc : o.sample ≤ e.sample + tol
    · simp [hc]
    · simp only [hc, decide_false, Bool.false_or]
      rw [if_neg (by simp), ih (fun e' he' => h e' (by simp [he']))]

/-- Invariant of the clustering loop: `p` is the processed prefix. -/
structure Inv (tol : ℕ) (p : List Tagged) (cs : List (List Tagged)) : Prop where
  flat : cs.flatten = p
  ne : ∀ c ∈ cs, c ≠ []
  chain : ∀ c ∈ cs, c.IsChain (fun a b => a.sample ≤ b.sample ∧ b.sample ≤ a.sample + tol)
  sep : cs.Pairwise (fun c d => ∀ a ∈ c, ∀ b ∈ d, a.sample + tol < b.sample)

theorem addTo_spec {tol : ℕ} {o : Tagged} (ho : o.sample < 2 ^ 31) {p : List Tagged} :
    ∀ {cs : List (List Tagged)}, Inv tol p cs → p.Pairwise (fun a b => a.sample ≤ b.sample) →
      (∀ e ∈ p, e.sample ≤ o.sample) → ∃ cs', addTo tol o cs = .ok cs' ∧ Inv tol (p ++ [o]) cs' := by
  suffices H : ∀ (cs : List (List Tagged)) (p : List Tagged), Inv tol p cs →
      p.Pairwise (fun a b => a.sample ≤ b.sample) → (∀ e ∈ p, e.sample ≤ o.sample) →
      ∃ cs', addTo tol o cs = .ok cs' ∧ Inv tol (p ++ [o]) cs' ∧
        ∀ b ∈ cs'.flatten, b ∈ cs.flatten ∨ b = o by
    intro cs h1 h2 h3
    obtain ⟨cs', e, h, _⟩ := H cs p h1 h2 h3
    exact ⟨cs', e, h⟩
  intro cs
  induction cs with
  | nil =>
    intro p hinv hs hle
    have hp : p = [] := by rw [← hinv.flat]; rfl
    subst hp
    refine ⟨[[o]], rfl, ⟨rfl, by simp, by simp, by simp⟩, by simp⟩
  | cons c cs ih =>
    intro p hinv hs hle
    have hflat := hinv.flat
    rw [List.flatten_cons] at hflat
    have hcle : ∀ e ∈ c, e.sample ≤ o.sample := fun e he => hle e (by rw [← hflat]; simp [he])
    have hsep := List.pairwise_cons.1 hinv.sep
    unfold addTo
    rw [hits_small ho hcle, R.ok_bind]
    by_cases hc : c.any (fun e => decide (o.sample ≤ e.sample + tol)) = true
    · rw [if_pos hc]
      obtain ⟨e, he, heo⟩ := List.any_eq_true.1 hc
      simp only [decide_eq_true_eq] at heo
      -- no later cluster exists
      have hcs : cs = [] := by
        cases cs with
        | nil => rfl
        | cons d ds =>
          exfalso
          obtain ⟨b, bs, rfl⟩ := List.exists_cons_of_ne_nil (hinv.ne d (by simp))
          have h1 := hsep.1 (b :: bs) (by simp) e he b (by simp)
          have h2 := hle b (by rw [← hflat]; simp)
          omega
      subst hcs
      simp only [List.flatten_nil, List.append_nil] at hflat
      subst hflat
      refine ⟨[c ++ [o]], rfl, ⟨by simp, by simp, ?_, by simp⟩, by simp⟩
      intro d hd
      obtain rfl : d = c ++ [o] := by simpa using hd
      rw [List.isChain_append]
      refine ⟨hinv.chain c (by simp), by simp, ?_⟩
      intro x hx y hy
      obtain rfl : y = o := by simpa using hy.symm
      have hxm : x ∈ c := List.mem_of_getLast? hx
      refine ⟨hcle x hxm, ?_⟩
      -- the last element of the sorted cluster is at least `e`
      have hxe : e.sample ≤ x.sample := by
        obtain ⟨init, rfl⟩ : ∃ init, c = init ++ [x] := by
          obtain ⟨ys, h⟩ := List.getLast?_eq_some_iff.1 hx; exact ⟨ys, h⟩
        rw [List.pairwise_append] at hs
        rcases List.mem_append.1 he with h | h
        · exact hs.2.2 e h x (by simp)
        · obtain rfl : e = x := by simpa using h
          exact Nat.le_refl _
      omega
    · rw [if_neg hc]
      have hfar : ∀ e ∈ c, e.sample + tol < o.sample := by
        intro e he
        by_contra hcon
        exact hc (List.any_eq_true.2 ⟨e, he, by simp only [decide_eq_true_eq]; omega⟩)
      have hinv' : Inv tol cs.flatten cs :=
        ⟨rfl, fun d hd => hinv.ne d (by simp [hd]), fun d hd => hinv.chain d (by simp [hd]), hsep.2⟩
      have hs' : cs.flatten.Pairwise (fun a b => a.sample ≤ b.sample) := by
        rw [← hflat, List.pairwise_append] at hs; exact hs.2.1
      obtain ⟨cs', e, hi, hm⟩ := ih cs.flatten hinv' hs' (fun e he => hle e (by rw [← hflat]; exact List.mem_append_right _ he))
      refine ⟨c :: cs', by rw [e]; rfl, ⟨?_, ?_, ?_, ?_⟩, ?_⟩
      · rw [List.flatten_cons, hi.flat, ← List.append_assoc, hflat]
      · intro d hd
        rcases List.mem_cons.1 hd with rfl | h
        · exact hinv.ne d (by simp)
        · exact hi.ne d h
      · intro d hd
        rcases List.mem_cons.1 hd with rfl | h
        · exact hinv.chain d (by simp)
        · exact hi.chain d h
      · rw [List.pairwise_cons]
        refine ⟨?_, hi.sep⟩
        intro d hd a ha b hb
        rcases hm b (List.mem_flatten.2 ⟨d, hd, hb⟩) with h | rfl
        · obtain ⟨d', hd', hb'⟩ := List.mem_flatten.1 h
          exact hsep.1 d' hd' a ha b hb'
        · exact hfar a ha
      · intro b hb
        rw [List.flatten_cons] at hb ⊢
        rcases List.mem_append.1 hb with h | h
        · exact .inl (List.mem_append_left _ h)
        · rcases hm b h with h | h
          · exact .inl (List.mem_append_right _ h)
          · exact .inr h

theorem clusterFrom_spec {tol : ℕ} : ∀ (os p : List Tagged) (cs : List (List Tagged)),
    (p ++ os).Pairwise (fun a b => a.sample ≤ b.sample) → (∀ o ∈ os, o.sample < 2 ^ 31) → Inv tol p cs →
    ∃ cs', clusterFrom tol os cs = .ok cs' ∧ Inv tol (p ++ os) cs' := by
  intro os
  induction os with
  | nil => intro p cs hs hb hinv; exact ⟨cs, rfl, by simpa using hinv⟩
  | cons o os ih =>
    intro p cs hs hb hinv
    have hs' := List.pairwise_append.1 hs
    obtain ⟨cs', e, hi⟩ := addTo_spec (hb o (by simp)) hinv hs'.1 (fun e he => hs'.2.2 e he o (by simp))
    obtain ⟨cs'', e', hi'⟩ := ih (p ++ [o]) cs' (by simpa using hs) (fun x hx => hb x (by simp [hx])) hi
    refine ⟨cs'', ?_, by simpa using hi'⟩
    unfold clusterFrom
    rw [e]
    exact e'

theorem sorted_tagged (l : List Tagged) :
    (rsort (fun a b : Tagged => decide (a.sample ≤ b.sample)) l).Pairwise (fun a b => a.sample ≤ b.sample) := by
  have := rsort_pairwise (le := fun a b : Tagged => decide (a.sample ≤ b.sample)) (l := l)
    (fun a _ b _ => by simp only [decide_eq_true_eq]; omega)
    (fun a _ b _ c _ => by simp only [decide_eq_true_eq]; omega)
  simpa using this

/-! ### Sorting commutes with maps that respect the order -/

theorem insertBy_map {α β : Type} {le : α → α → Bool} {le' : β → β → Bool} (f : α → β) (P : α → Prop)
    (h : ∀ a b, P a → P b → le' (f a) (f b) = le a b) (a : α) (l : List α) (ha : P a) (hl : ∀ b ∈ l, P b) :
    insertBy le' (f a) (l.map f) = (insertBy le a l).map f := by
  induction l with
  | nil => rfl
  | cons b l ih =>
    simp only [insertBy, List.map_cons, h a b ha (hl b (by simp))]
    split
    · rfl
    · rw [List.map_cons, ih (fun c hc => hl c (by simp [hc]))]

theorem rsort_map {α β : Type} {le : α → α → Bool} {le' : β → β → Bool} (f : α → β) (P : α → Prop)
    (h : ∀ a b, P a → P b → le' (f a) (f b) = le a b) (l : List α) (hl : ∀ b ∈ l, P b) :
    rsort le' (l.map f) = (rsort le l).map f := by
  induction l with
  | nil => rfl
  | cons a l ih =>
    show insertBy le' (f a) (rsort le' (l.map f)) = (insertBy le a (rsort le l)).map f
    rw [ih (fun b hb => hl b (by simp [hb])), insertBy_map f P h a _ (hl a (by simp))]
    intro b hb; rw [mem_rsort] at hb; exact hl b (by simp [hb])

/-! ### Shifting -/

/-- Move an onset by `d` samples. -/
def Tagged.shift (d : ℕ) (o : Tagged) : Tagged := { o with sample := o.sample + d }

theorem near_shift {tol a b d : ℕ} (ha : a + d < 2 ^ 31) (hb : b + d < 2 ^ 31) :
    near tol (a + d) (b + d) = near tol a b := by
  unfold near
  rw [asI32_small ha, asI32_small hb, asI32_small (by omega), asI32_small (by omega)]
  have : ((a + d : ℕ) : ℤ) - ((b + d : ℕ) : ℤ) = (a : ℤ) - b := by omega
  rw [this]

theorem hits_shift {tol d : ℕ} {o : Tagged} (ho : o.sample + d < 2 ^ 31) {c : List Tagged}
    (h : ∀ e ∈ c, e.sample + d < 2 ^ 31) : hits tol (o.shift d) (c.map (Tagged.shift d)) = hits tol o c := by
  induction c with
  | nil => rfl
  | cons e es ih =>
    simp only [List.map_cons, hits]
    rw [ih (fun e' he => h e' (by simp [he]))]
    show (near tol (o.sample + d) (e.sample + d) >>= _) = _
    rw [near_shift ho (h e (by simp))]

theorem addTo_shift {tol d : ℕ} {o : Tagged} (ho : o.sample + d < 2 ^ 31) :
    ∀ {cs : List (List Tagged)}, (∀ c ∈ cs, ∀ e ∈ c, e.sample + d < 2 ^ 31) →
      addTo tol (o.shift d) (cs.map (List.map (Tagged.shift d))) =
        (addTo tol o cs).map (List.map (List.map (Tagged.shift d))) := by
  intro cs
  induction cs with
  | nil => intro _; rfl
  | cons c cs ih =>
    intro h
    simp only [List.map_cons, addTo]
    rw [hits_shift ho (h c (by simp)), ih (fun c' hc => h c' (by simp [hc]))]
    cases hits tol o c with
    | error e => rfl
    | ok b =>
      cases b
      · cases addTo tol o cs <;> simp [Except.map]
      · simp [Except.map]

theorem addTo_mem {tol : ℕ} {o : Tagged} : ∀ {cs cs' : List (List Tagged)}, addTo tol o cs = .ok cs' →
    ∀ c ∈ cs', ∀ e ∈ c, e = o ∨ ∃ c0 ∈ cs, e ∈ c0 := by
  intro cs
  induction cs with
  | nil =>
    intro cs' h c hc e he
    obtain rfl := Except.ok.inj h
    left; simp at hc; subst hc; simpa using he
  | cons a as ih =>
    intro cs' h c hc e he
    unfold addTo at h
    obtain ⟨b, hb, h⟩ := R.bind_eq_ok.1 h
    cases b
    · rw [if_neg (by simp)] at h
      obtain ⟨r, hr, h⟩ := R.bind_eq_ok.1 h
      obtain rfl := Except.ok.inj h
      rcases List.mem_cons.1 hc with rfl | hc
      · exact .inr ⟨c, by simp, he⟩
      · rcases ih hr c hc e he with h | ⟨c0, h0, h1⟩
        · exact .inl h
        · exact .inr ⟨c0, by simp [h0], h1⟩
    · rw [if_pos rfl] at h
      obtain rfl := Except.ok.inj h
      rcases List.mem_cons.1 hc with rfl | hc
      · rcases List.mem_append.1 he with h | h
        · exact .inr ⟨a, by simp, h⟩
        · left; simpa using h
      · exact .inr ⟨c, by simp [hc], he⟩

theorem clusterFrom_shift {tol d : ℕ} : ∀ (os : List Tagged) (cs : List (List Tagged)),
    (∀ o ∈ os, o.sample + d < 2 ^ 31) → (∀ c ∈ cs, ∀ e ∈ c, e.sample + d < 2 ^ 31) →
      clusterFrom tol (os.map (Tagged.shift d)) (cs.map (List.map (Tagged.shift d))) =
        (clusterFrom tol os cs).map (List.map (List.map (Tagged.shift d))) := by
  intro os
  induction os with
  | nil => intro cs _ _; rfl
  | cons o os ih =>
    intro cs ho hc
    simp only [List.map_cons, clusterFrom]
    rw [addTo_shift (ho o (by simp)) hc]
    cases hadd : addTo tol o cs with
    | error e => rfl
    | ok cs' =>
      simp only [Except.map, R.ok_bind]
      apply ih cs' (fun x hx => ho x (by simp [hx]))
      intro c hc' e he
      rcases addTo_mem hadd c hc' e he with rfl | ⟨c0, h0, h1⟩
      · exact ho e (by simp)
      · exact hc c0 h0 e h1

end Verif.Consensus
