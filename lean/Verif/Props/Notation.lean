/-
Properties C38, C39, C56 (key notation): src/analysis/result.rs.
-/
import Verif.Model.Notation

namespace Verif.Props
open Verif Verif.Keys

/-- Specification: the key with its index reduced to 0..11. -/
def canon : Key → Key
  | .major i => .major (i % 12)
  | .minor i => .minor (i % 12)

theorem numerical_canon (k : Key) : k.numerical = (canon k).numerical := by
  cases k <;> simp [Key.numerical, canon]

theorem name_canon (k : Key) : k.name = (canon k).name := by
  cases k <;> simp [Key.name, canon]

theorem canon_cases {P : Key → Prop} (h1 : ∀ i : Fin 12, P (.major i)) (h2 : ∀ i : Fin 12, P (.minor i)) (k : Key) :
    P (canon k) := by
  cases k with
  | major i => exact h1 ⟨i % 12, Nat.mod_lt _ (by norm_num)⟩
  | minor i => exact h2 ⟨i % 12, Nat.mod_lt _ (by norm_num)⟩

/-- Specification of the number of a key in the DJ notation: positions along the circle of fifths,
starting from C / A minor (7 is its own inverse modulo 12). -/
def wheelNumber : Key → ℕ
  | .major i => (7 * i) % 12 + 1
  | .minor i => (7 * (i + 3)) % 12 + 1

/-- Specification of the notation: the number in decimal, then `A` for major and `B` for minor. -/
def wheelText (k : Key) : List Char :=
  (toString (wheelNumber k)).toList ++ (match k with | .major _ => ['A'] | .minor _ => ['B'])

/-- **C38, round trip**: parsing the numerical notation of any key gives that key (index modulo 12). -/
theorem C38_round_trip (k : Key) : fromNumerical k.numerical = .ok (some (canon k)) := by
  rw [numerical_canon]
  exact canon_cases (P := fun k => fromNumerical k.numerical = .ok (some k)) (by decide +kernel) (by decide +kernel) k

/-- **C38, meaning**: the notation is the position along the circle of fifths; so a key and its relative
minor share the number, and a fifth up is the next number modulo 12. -/
theorem C38_circle_of_fifths :
    (∀ k : Key, k.numerical = wheelText k) ∧
    (∀ i, wheelNumber (.minor (i + 9)) = wheelNumber (.major i)) ∧
    (∀ i, wheelNumber (.major (i + 7)) = wheelNumber (.major i) % 12 + 1 ∧
      wheelNumber (.minor (i + 7)) = wheelNumber (.minor i) % 12 + 1) := by
  refine ⟨?_, ?_, ?_⟩
  · intro k
    have h : wheelText k = wheelText (canon k) := by
      cases k <;> simp [wheelText, wheelNumber, canon] <;> congr 2 <;> omega
    rw [numerical_canon, h]
    exact canon_cases (P := fun k => k.numerical = wheelText k) (by decide +kernel) (by decide +kernel) k
  · intro i; simp only [wheelNumber]; omega
  · intro i; simp only [wheelNumber]; omega

/-- **C38, injectivity**: two keys have the same notation only if they are the same key. -/
theorem C38_injective (k l : Key) (h : k.numerical = l.numerical) : canon k = canon l := by
  have h1 := C38_round_trip k
  rw [h, C38_round_trip l] at h1
  exact (Option.some.inj (Except.ok.inj h1)).symm

/-- non-vacuity -/
example : (Key.minor 4).numerical = "2B".toList ∧ wheelNumber (.minor 4) = 2 ∧ canon (.major 19) = .major 7 := by
  decide +kernel

/-- **C56**: key names distinguish the 24 keys, minor names are the major name plus `m`, and no name is empty. -/
theorem C56_names (k l : Key) :
    (k.name = l.name ↔ canon k = canon l) ∧ k.name ≠ [] ∧
    (∀ i, (Key.minor i).name = (Key.major i).name ++ ['m']) := by
  refine ⟨?_, ?_, fun i => rfl⟩
  · rw [name_canon k, name_canon l]
    constructor
    · have key : ∀ k l : Key, (canon k).name = (canon l).name → canon k = canon l := by
        intro k
        refine canon_cases (P := fun k => ∀ l, k.name = (canon l).name → k = canon l) ?_ ?_ k
        · intro i l
          revert i
          exact canon_cases (P := fun l => ∀ i : Fin 12, (Key.major i).name = l.name → Key.major i = l)
            (by decide +kernel) (by decide +kernel) l
        · intro i l
          revert i
          exact canon_cases (P := fun l => ∀ i : Fin 12, (Key.minor i).name = l.name → Key.minor i = l)
            (by decide +kernel) (by decide +kernel) l
      exact key k l
    · intro h; rw [h]
  · rw [name_canon]
    exact canon_cases (P := fun k => k.name ≠ []) (by decide +kernel) (by decide +kernel) k

/-- non-vacuity -/
example : (Key.minor 6).name = "F#m".toList ∧ (Key.major 13).name = (Key.major 1).name := by decide +kernel

/-! ### Parsing -/

theorem toDigit_some {c : Char} {d : ℕ} (h : toDigit c = some d) : d < 10 ∧ c = Char.ofNat (48 + d) := by
  unfold toDigit at h
  split_ifs at h with hc
  have h1 : 48 ≤ c.toNat := hc.1
  have h2 : c.toNat ≤ 57 := hc.2
  have h3 := Option.some.inj h
  refine ⟨by omega, ?_⟩
  rw [show 48 + d = c.toNat by omega, Char.ofNat_toNat]

theorem parseDigits_ge {acc n : ℕ} {l : List Char} (h : parseDigits acc l = some n) : acc * 10 ^ l.length ≤ n := by
  induction l generalizing acc with
  | nil => simp [parseDigits] at h; simp [h]
  | cons c l ih =>
    unfold parseDigits at h
    split at h
    · exact absurd h (by simp)
    · split_ifs at h
      have := ih h
      rw [List.length_cons, pow_succ]
      refine le_trans ?_ this
      have hp : 0 < 10 ^ l.length := by positivity
      nlinarith

/-- Specification: the 24 valid notations and their keys. -/
def validNotations : List (List Char × Key) :=
  (List.range 12).flatMap (fun i => [(wheelText (.major i), .major i), (wheelText (.minor i), .minor i)])

/-- Specification: a `u32` numeral that Rust's parser accepts besides the plain one, because of a sign or leading
zeros. -/
def Padded (s : List Char) : Prop := s.head? = some '+' ∨ s.head? = some '0'

instance (s : List Char) : Decidable (Padded s) := by unfold Padded; infer_instance

theorem parse_small {l : List Char} {n : ℕ} (hp : ¬ Padded l) (h : parseU32 l = some n) (h1 : 1 ≤ n) (h2 : n ≤ 12) :
    l = (toString n).toList := by
  have hpd : parseDigits 0 l = some n := by
    cases l with
    | nil => simp [parseU32] at h
    | cons c cs =>
      by_cases hc : c = '+'
      · exact absurd (.inl (by simp [hc])) hp
      · unfold parseU32 at h
        split at h
        · simp_all
        · simp_all
        · exact h
  cases l with
  | nil => simp [parseU32] at h
  | cons c cs =>
    unfold parseDigits at hpd
    split at hpd
    · exact absurd hpd (by simp)
    · rename_i d hd
      obtain ⟨d1, rfl⟩ := toDigit_some hd
      have hd0 : d ≠ 0 := by
        rintro rfl
        exact hp (.inr (by simp))
      split_ifs at hpd
      have hge := parseDigits_ge hpd
      cases cs with
      | nil =>
        simp only [parseDigits] at hpd
        have : d = n := by simpa using hpd
        subst this
        have : ∀ d : Fin 10, [Char.ofNat (48 + d)] = (toString d.val).toList := by decide +kernel
        exact this ⟨d, d1⟩
      | cons e cs =>
        have hcs : cs = [] := by
          cases cs with
          | nil => rfl
          | cons e' cs' =>
            exfalso
            rw [List.length_cons, List.length_cons, pow_succ, pow_succ] at hge
            have hp : 0 < 10 ^ cs'.length := by positivity
            have : 1 * 1 ≤ d * 10 ^ cs'.length := Nat.mul_le_mul (by omega) hp
            nlinarith
        subst hcs
        unfold parseDigits at hpd
        split at hpd
        · exact absurd hpd (by simp)
        · rename_i d' hd'
          obtain ⟨d1', rfl⟩ := toDigit_some hd'
          split_ifs at hpd
          simp only [parseDigits] at hpd
          have hn : (0 * 10 + d) * 10 + d' = n := by simpa using hpd
          have : d = 1 := by omega
          subst this
          have : n = 10 + d' := by omega
          subst this
          have : ∀ d : Fin 10, [Char.ofNat (48 + 1), Char.ofNat (48 + d)] = (toString (10 + d.val)).toList := by decide +kernel
          exact this ⟨d', d1'⟩

theorem utf8Size_lt (c : Char) : 1 ≤ c.utf8Size := Char.utf8Size_pos c

/-- **C39 (partial)**: for strings ending in an ASCII character and not starting with `+` or `0`,
`from_numerical` returns a key exactly on the 24 valid notations (and the right key), `None` on
everything else.  Missing: strings starting with `+`/`0` (accepted, `C39_violated`) and strings ending in a
multi-byte character (panic, `C39_violated_panic`). -/
theorem C39_parse_partial (s : List Char) (hp : ¬ Padded s) (ha : ∀ c, s.getLast? = some c → c.utf8Size = 1) :
    (∀ k, (s, k) ∈ validNotations → fromNumerical s = .ok (some k)) ∧
    ((∀ k, (s, k) ∉ validNotations) → fromNumerical s = .ok none) := by
  have hval : ∀ p ∈ validNotations, fromNumerical p.1 = .ok (some p.2) := by decide +kernel
  refine ⟨fun k hk => hval (s, k) hk, ?_⟩
  intro hn
  unfold fromNumerical
  split_ifs with hlen
  · rfl
  cases hl : s.getLast? with
  | none => rfl
  | some c =>
    dsimp only
    rw [if_neg (by simpa using ha c hl)]
    cases hq : parseU32 s.dropLast with
    | none => rfl
    | some num =>
      dsimp only
      by_cases hr : 1 ≤ num ∧ num ≤ 12
      · rw [if_neg (by simpa using hr)]
        have hs : s = s.dropLast ++ [c] := by
          have hne : s ≠ [] := by rintro rfl; simp at hl
          rw [List.getLast?_eq_some_getLast hne] at hl
          have := List.dropLast_append_getLast hne
          rw [Option.some.inj hl] at this
          exact this.symm
        have hp' : ¬ Padded s.dropLast := by
          intro h
          apply hp
          rw [hs]
          unfold Padded at *
          cases hd : s.dropLast with
          | nil => rw [hd] at h; simp at h
          | cons a l => rw [hd] at h; simpa using h
        have hnum := parse_small hp' hq hr.1 hr.2
        have hA : ∀ n : Fin 13, 1 ≤ n.val → ∃ p ∈ validNotations, p.1 = (toString n.val).toList ++ ['A'] := by
          decide +kernel
        have hB : ∀ n : Fin 13, 1 ≤ n.val → ∃ p ∈ validNotations, p.1 = (toString n.val).toList ++ ['B'] := by
          decide +kernel
        split_ifs with h1 h2
        · obtain ⟨⟨s', k⟩, hk, he⟩ := hA ⟨num, by omega⟩ hr.1
          dsimp only at he
          rw [← hnum, ← h1, ← hs] at he
          subst he
          exact absurd hk (hn k)
        · obtain ⟨⟨s', k⟩, hk, he⟩ := hB ⟨num, by omega⟩ hr.1
          dsimp only at he
          rw [← hnum, ← h2, ← hs] at he
          subst he
          exact absurd hk (hn k)
        · rfl
      · rw [if_pos hr]

/-- non-vacuity: one valid and one invalid string -/
example : ¬ Padded "12A".toList ∧ ("12A".toList, .major 5) ∈ validNotations ∧
    ¬ Padded "13A".toList ∧ fromNumerical "13A".toList = .ok none ∧ validNotations.length = 24 := by decide +kernel

/-- **C39 violated**: `+1A` and `01A` are not among the 24 notations but are accepted. -/
theorem C39_violated :
    (∀ p ∈ validNotations, p.1 ≠ "+1A".toList ∧ p.1 ≠ "01A".toList) ∧
    fromNumerical "+1A".toList = .ok (some (.major 0)) ∧ fromNumerical "01A".toList = .ok (some (.major 0)) := by
  decide +kernel

/-- **C39 violated by a panic**: a string of two or more bytes ending in a multi-byte character. -/
theorem C39_violated_panic (s : List Char) (c : Char) (hc : 1 < c.utf8Size) : fromNumerical (s ++ [c]) = R.panic := by
  have : ¬ byteLen (s ++ [c]) < 2 := by
    unfold byteLen
    simp only [List.map_append, List.map_cons, List.map_nil, List.sum_append, List.sum_cons, List.sum_nil]
    omega
  unfold fromNumerical
  rw [if_neg this, List.getLast?_append]
  simp
  omega

/-- non-vacuity -/
example : 1 < 'é'.utf8Size ∧ fromNumerical "1é".toList = R.panic := by decide +kernel

end Verif.Props
