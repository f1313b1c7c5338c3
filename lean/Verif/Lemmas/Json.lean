import Verif.Spec.Json
import Verif.Model.Tools
import Mathlib.Data.List.Forall2
/-
JSON texts of the shape the tools print are read back.
-/
namespace Libmorph
namespace Json

theorem skipWs_cons {b : Byte} (h : isWs b = false) (r : List Byte) : skipWs (b :: r) = b :: r := by
  simp [skipWs, List.dropWhile_cons, h]

theorem skipWs_append {w : List Byte} (h : ∀ b ∈ w, isWs b = true) (r : List Byte) : skipWs (w ++ r) = skipWs r := by
  induction w with
  | nil => rfl
  | cons b w ih =>
    have hb := h b (by simp)
    have := ih fun c hc => h c (by simp [hc])
    simpa [skipWs, List.dropWhile_cons, hb] using this

variable {lax : Bool}

/-- What may follow a number. -/
def Ends (r : List Byte) : Prop := ∀ b ∈ r.head?, isDigit b = false ∧ b ≠ 46 ∧ b ≠ 101 ∧ b ≠ 69

/-- `t` is a text of the value `v`. -/
def Reads (lax : Bool) (t : List Byte) (v : JVal) : Prop := ∀ f r, t.length < f → Ends r → value lax f (t ++ r) = some (v, r)

/-- `t` is a text of the member `m`. -/
def ReadsMember (lax : Bool) (t : List Byte) (m : List Byte × JVal) : Prop := ∀ f r, t.length < f → Ends r → member lax f (t ++ r) = some (m, r)

theorem ends_of {b : Byte} (h : b = 44 ∨ b = 93 ∨ b = 125 ∨ isWs b = true) (r : List Byte) : Ends (b :: r) := by
  intro c hc
  simp only [List.head?_cons, Option.mem_def, Option.some.injEq] at hc
  subst hc
  rcases h with rfl | rfl | rfl | h
  · decide
  · decide
  · decide
  · simp only [isWs, Bool.or_eq_true, decide_eq_true_eq] at h
    rcases h with ((rfl | rfl) | rfl) | rfl <;> decide

theorem ends_nil : Ends [] := by simp [Ends]

theorem ends_ws {w : List Byte} (h : ∀ b ∈ w, isWs b = true) {r : List Byte} (hr : Ends r) : Ends (w ++ r) := by
  cases w with
  | nil => exact hr
  | cons b w => exact ends_of (.inr (.inr (.inr (h b (by simp))))) _

theorem Reads.ws {w t : List Byte} {v : JVal} (hw : ∀ b ∈ w, isWs b = true) (h : Reads lax t v) : Reads lax (w ++ t) v := by
  intro f r hf hr
  obtain ⟨f, rfl⟩ : ∃ g, f = g + 1 := ⟨f - 1, by omega⟩
  have := h (f + 1) r (by simp at hf; omega) hr
  rw [value] at this ⊢
  rw [List.append_assoc, skipWs_append hw]
  exact this

theorem ReadsMember.ws {w t : List Byte} {v : List Byte × JVal} (hw : ∀ b ∈ w, isWs b = true) (h : ReadsMember lax t v) : ReadsMember lax (w ++ t) v := by
  intro f r hf hr
  obtain ⟨f, rfl⟩ : ∃ g, f = g + 1 := ⟨f - 1, by omega⟩
  have := h (f + 1) r (by simp at hf; omega) hr
  rw [member] at this ⊢
  rw [List.append_assoc, skipWs_append hw]
  exact this

/-! ### Strings -/

/-- Bytes that stand for themselves in a string. -/
def Plain (t : List Byte) : Prop := ∀ b ∈ t, 32 ≤ b ∧ b ≠ 34 ∧ b ≠ 92

theorem str_plain {t : List Byte} (h : Plain t) (r : List Byte) : str (t ++ 34 :: r) = some (t, r) := by
  rw [str]
  induction t with
  | nil => simp [strFrom]
  | cons b t ih =>
    obtain ⟨h1, h2, h3⟩ := h b (by simp)
    have := ih fun c hc => h c (by simp [hc])
    simp [strFrom, h2, h3, this, show ¬ b < 32 by omega]

theorem reads_str {t : List Byte} (h : Plain t) : Reads lax (34 :: t ++ [34]) (.str t) := by
  intro f r hf _
  obtain ⟨f, rfl⟩ : ∃ g, f = g + 1 := ⟨f - 1, by omega⟩
  simp [value, skipWs_cons (b := 34) (by decide), str_plain h]

theorem reads_member {k t : List Byte} {v : JVal} (hk : Plain k) (h : Reads lax t v) : ReadsMember lax (34 :: k ++ [34, 58] ++ t) (k, v) := by
  intro f r hf hr
  obtain ⟨f, rfl⟩ : ∃ g, f = g + 1 := ⟨f - 1, by omega⟩
  have h1 : str (k ++ 34 :: 58 :: (t ++ r)) = some (k, 58 :: (t ++ r)) := str_plain hk _
  have h2 := h f r (by simp at hf; omega) hr
  simp [member, skipWs_cons (b := 34) (by decide), h1, skipWs_cons (b := 58) (by decide), h2]

/-! ### Numbers -/

theorem digits_append {ds r : List Byte} (hd : ∀ d ∈ ds, isDigit d = true) (hr : ∀ b ∈ r.head?, isDigit b = false) : digits (ds ++ r) = (ds, r) := by
  induction ds with
  | nil =>
    cases r with
    | nil => rfl
    | cons b r => simp [digits, hr b (by simp)]
  | cons d ds ih =>
    have hd0 := hd d (by simp)
    have := ih fun c hc => hd c (by simp [hc])
    simp only [digits, Prod.mk.injEq] at this
    simp [digits, List.takeWhile_cons, List.dropWhile_cons, hd0, this]

theorem decimalUpTo_digits (f n : Nat) : ∀ d ∈ decimalUpTo f n, isDigit d = true := by
  induction f generalizing n with
  | zero => simp [decimalUpTo]
  | succ f ih =>
    rw [decimalUpTo]
    split
    · intro d hd; simp at hd; subst hd; simp [isDigit]; omega
    · intro d hd
      rcases List.mem_append.1 hd with h | h
      · exact ih _ d h
      · simp at h; subst h; simp [isDigit]; omega

theorem natOf_append (a : List Byte) (d : Byte) : natOf (a ++ [d]) = 10 * natOf a + (d - 48) := by simp [natOf]

theorem decimalUpTo_value (f n : Nat) (h : n < f) : natOf (decimalUpTo f n) = n := by
  induction f generalizing n with
  | zero => omega
  | succ f ih =>
    rw [decimalUpTo]
    split
    · simp [natOf]
    · rw [natOf_append, ih _ (by omega)]; omega

theorem decimalUpTo_head (f n : Nat) (h : n < f) : decimalUpTo f n ≠ [] ∧ (n ≠ 0 → (decimalUpTo f n).head? ≠ some 48) := by
  induction f generalizing n with
  | zero => omega
  | succ f ih =>
    rw [decimalUpTo]
    split
    · refine ⟨by simp, fun h0 => by simp; omega⟩
    · obtain ⟨h1, h2⟩ := ih (n / 10) (by omega)
      refine ⟨by simp, fun _ => ?_⟩
      rw [List.head?_append_of_ne_nil _ h1]
      exact h2 (by omega)

theorem intDigits_decimal (n : Nat) (r : List Byte) (hr : ∀ b ∈ r.head?, isDigit b = false) :
    intDigits (decimal n ++ r) = some (decimal n, r) := by
  have h0 := decimalUpTo_head (n + 1) n (by omega)
  have hd : digits (decimal n ++ r) = (decimal n, r) := digits_append (decimalUpTo_digits _ _) hr
  rw [intDigits, hd]
  rw [if_neg]
  rintro (h | ⟨h, h'⟩)
  · exact h0.1 h
  · rcases Nat.eq_zero_or_pos n with rfl | hn
    · exact h' rfl
    · exact h0.2 (by omega) h

theorem number_decimal (n : Nat) (r : List Byte) (hr : Ends r) : number (decimal n ++ r) = some (.int n, r) := by
  have h0 := decimalUpTo_head (n + 1) n (by omega)
  have hd := decimalUpTo_digits (n + 1) n
  obtain ⟨b, t, hb⟩ := List.exists_cons_of_ne_nil h0.1
  have hb' : decimal n = b :: t := hb
  have hdb : isDigit b = true := hd b (by rw [hb]; simp)
  have hne : b ≠ 45 := by rintro rfl; exact absurd hdb (by decide)
  have h1 := intDigits_decimal n r fun c hc => (hr c hc).1
  have h2 : frac r = some ([], r) := by
    cases r with
    | nil => rfl
    | cons c r => simp [frac, (hr c (by simp)).2.1]
  have h3 : exponent r = some ([], r) := by
    cases r with
    | nil => rfl
    | cons c r => simp [exponent, (hr c (by simp)).2.2]
  have hh : (decimal n ++ r).head? ≠ some 45 := by rw [hb']; simpa using hne
  have hv : natOf (decimal n) = n := decimalUpTo_value _ _ (by omega)
  rw [number, if_neg hh]
  simp [h1, h2, h3, hv]

theorem reads_decimal (n : Nat) : Reads lax (decimal n) (.int n) := by
  intro f r hf hr
  have h0 := decimalUpTo_head (n + 1) n (by omega)
  have hd := decimalUpTo_digits (n + 1) n
  obtain ⟨b, t, hb⟩ := List.exists_cons_of_ne_nil h0.1
  have hb' : decimal n = b :: t := hb
  have hdb : isDigit b = true := hd b (by rw [hb]; simp)
  obtain ⟨f, rfl⟩ : ∃ g, f = g + 1 := ⟨f - 1, by omega⟩
  have hn := number_decimal n r hr
  rw [hb'] at hn ⊢
  have hr : 48 ≤ b ∧ b ≤ 57 := by simpa [isDigit] using hdb
  rw [value, List.cons_append, skipWs_cons (by simp [isWs]; omega)]
  simp only
  rw [if_neg (by omega), if_neg (by omega), if_neg (by omega), if_pos (.inr hdb)]
  exact hn

theorem reads_padded (k n : Nat) : Reads lax (padded k (decimal n)) (.int n) :=
  (reads_decimal n).ws fun b hb => by rw [List.eq_of_mem_replicate hb]; rfl

/-! ### Arrays and objects -/

/-- Texts with commas between them. -/
def commas : List (List Byte) → List Byte
  | [] => []
  | [t] => t
  | t :: u :: ts => t ++ 44 :: commas (u :: ts)

/-- The text of a value does not begin, after white space, with a closing bracket. -/
theorem Reads.front {t : List Byte} {v : JVal} (h : Reads lax t v) (r : List Byte) (hr : Ends r) : ∃ b u, skipWs (t ++ r) = b :: u ∧ b ≠ 93 := by
  have := h (t.length + 1) r (by omega) hr
  rw [value] at this
  cases hs : skipWs (t ++ r) with
  | nil => rw [hs] at this; simp at this
  | cons b u =>
    refine ⟨b, u, rfl, ?_⟩
    rintro rfl
    rw [hs] at this
    simp [isDigit, literal] at this

theorem ReadsMember.front {t : List Byte} {m : List Byte × JVal} (h : ReadsMember lax t m) (r : List Byte) (hr : Ends r) : ∃ b u, skipWs (t ++ r) = b :: u ∧ b ≠ 125 := by
  have := h (t.length + 1) r (by omega) hr
  rw [member] at this
  cases hs : skipWs (t ++ r) with
  | nil => rw [hs] at this; simp at this
  | cons b u =>
    refine ⟨b, u, rfl, ?_⟩
    rintro rfl
    rw [hs] at this
    simp at this

theorem commas_front {ts : List (List Byte)} (w : List Byte) (hw : ∀ b ∈ w, isWs b = true) (c : Byte) (hc : c = 93 ∨ c = 125) (r : List Byte) (t : List Byte) :
    ∃ r', commas (t :: ts) ++ w ++ c :: r = t ++ r' ∧ Ends r' := by
  cases ts with
  | nil => exact ⟨w ++ c :: r, by simp [commas], ends_ws hw (ends_of (by rcases hc with rfl | rfl <;> simp) _)⟩
  | cons u ts => exact ⟨44 :: (commas (u :: ts) ++ w ++ c :: r), by simp [commas], ends_of (by simp) _⟩

theorem elements_commas {ts : List (List Byte)} {vs : List JVal} (h : List.Forall₂ (Reads lax) ts vs) (hne : ts ≠ [])
    {w : List Byte} (hw : ∀ b ∈ w, isWs b = true) :
    ∀ f r, (commas ts ++ w ++ [93]).length < f → elements lax f (commas ts ++ w ++ 93 :: r) = some (vs, r) := by
  induction h with
  | nil => exact absurd rfl hne
  | @cons t v ts vs h1 h2 ih =>
    intro f r hf
    obtain ⟨f, rfl⟩ : ∃ g, f = g + 1 := ⟨f - 1, by omega⟩
    rw [elements]
    cases h2 with
    | nil =>
      have e : commas [t] ++ w ++ 93 :: r = t ++ (w ++ 93 :: r) := by simp [commas]
      rw [e, h1 f _ (by simp [commas] at hf; omega) (ends_ws hw (ends_of (by simp) _))]
      simp [skipWs_append hw, skipWs_cons (b := 93) (by decide)]
    | @cons u v' ts vs h2 h3 =>
      have e : commas (t :: u :: ts) ++ w ++ 93 :: r = t ++ (44 :: (commas (u :: ts) ++ w ++ 93 :: r)) := by simp [commas]
      rw [e, h1 f _ (by simp [commas] at hf; omega) (ends_of (by simp) _)]
      have := ih (by simp) f r (by simp [commas] at hf ⊢; omega)
      obtain ⟨r', e', hr'⟩ := commas_front (ts := ts) w hw 93 (.inl rfl) r u
      obtain ⟨b, q, hb, hne'⟩ := h2.front r' hr'
      simp only [skipWs_cons (b := 44) (by decide), if_pos]
      rw [this, if_neg (by rw [e', hb]; simp [hne'])]; rfl

/-- The lax reader takes a comma behind the last element, the other does not. -/
theorem elements_comma {ts : List (List Byte)} {vs : List JVal} (h : List.Forall₂ (Reads lax) ts vs) (hne : ts ≠ [])
    {w : List Byte} (hw : ∀ b ∈ w, isWs b = true) :
    ∀ f r, (commas ts ++ 44 :: w ++ [93]).length < f →
      elements lax f (commas ts ++ 44 :: w ++ 93 :: r) = if lax then some (vs, r) else none := by
  induction h with
  | nil => exact absurd rfl hne
  | @cons t v ts vs h1 h2 ih =>
    intro f r hf
    obtain ⟨f, rfl⟩ : ∃ g, f = g + 1 := ⟨f - 1, by omega⟩
    rw [elements]
    have hw93 : skipWs (w ++ 93 :: r) = 93 :: r := by rw [skipWs_append hw, skipWs_cons (by decide)]
    cases h2 with
    | nil =>
      have e : commas [t] ++ 44 :: w ++ 93 :: r = t ++ 44 :: (w ++ 93 :: r) := by simp [commas]
      rw [e, h1 f _ (by simp [commas] at hf; omega) (ends_of (by simp) _)]
      simp only [skipWs_cons (b := 44) (by decide), if_pos, hw93, List.head?_cons, and_true, List.tail_cons]
      cases lax with
      | true => rfl
      | false =>
        have : elements Bool.false f (w ++ 93 :: r) = none := by
          cases f with
          | zero => rfl
          | succ f =>
            rw [elements]
            cases f with
            | zero => rfl
            | succ f => rw [value, hw93]; simp [isDigit, literal]
        rw [this]; rfl
    | @cons u v' ts vs h2 h3 =>
      have e : commas (t :: u :: ts) ++ 44 :: w ++ 93 :: r = t ++ (44 :: (commas (u :: ts) ++ 44 :: w ++ 93 :: r)) := by simp [commas]
      rw [e, h1 f _ (by simp [commas] at hf; omega) (ends_of (by simp) _)]
      have := ih (by simp) f r (by simp [commas] at hf ⊢; omega)
      obtain ⟨r', e', hr'⟩ : ∃ r', commas (u :: ts) ++ 44 :: w ++ 93 :: r = u ++ r' ∧ Ends r' := by
        cases ts with
        | nil => exact ⟨44 :: w ++ 93 :: r, by simp [commas], ends_of (by simp) _⟩
        | cons x ts => exact ⟨44 :: (commas (x :: ts) ++ 44 :: w ++ 93 :: r), by simp [commas], ends_of (by simp) _⟩
      obtain ⟨b, q, hb, hne'⟩ := h2.front r' hr'
      simp only [skipWs_cons (b := 44) (by decide), if_pos]
      rw [this, if_neg (by rw [e', hb]; simp [hne'])]
      cases lax <;> rfl

/-- An array with a comma behind the last element: a text of it for the lax reader, and for the other no value begins here. -/
theorem value_comma {ts : List (List Byte)} {vs : List JVal} (h : List.Forall₂ (Reads lax) ts vs) (hne : ts ≠ [])
    {w : List Byte} (hw : ∀ b ∈ w, isWs b = true) (f : Nat) (r : List Byte) (hf : (91 :: commas ts ++ 44 :: w ++ [93]).length < f) :
    value lax f (91 :: commas ts ++ 44 :: w ++ [93] ++ r) = if lax then some (.arr vs, r) else none := by
  obtain ⟨f, rfl⟩ : ∃ g, f = g + 1 := ⟨f - 1, by omega⟩
  have e : 91 :: commas ts ++ 44 :: w ++ [93] ++ r = 91 :: (commas ts ++ 44 :: w ++ 93 :: r) := by simp
  rw [e, value, skipWs_cons (by decide)]
  simp only
  rw [if_pos trivial]
  cases h with
  | nil => exact absurd rfl hne
  | @cons t v ts vs h1 h2 =>
    obtain ⟨r', e', hr'⟩ : ∃ r', commas (t :: ts) ++ 44 :: w ++ 93 :: r = t ++ r' ∧ Ends r' := by
      cases ts with
      | nil => exact ⟨44 :: w ++ 93 :: r, by simp [commas], ends_of (by simp) _⟩
      | cons x ts => exact ⟨44 :: (commas (x :: ts) ++ 44 :: w ++ 93 :: r), by simp [commas], ends_of (by simp) _⟩
    obtain ⟨b, u, hb, hne'⟩ := h1.front r' hr'
    rw [if_neg (by rw [e', hb]; simpa using hne'), elements_comma (.cons h1 h2) (by simp) hw f r (by simp at hf ⊢; omega)]
    cases lax <;> rfl

theorem members_commas {ts : List (List Byte)} {vs : List (List Byte × JVal)} (h : List.Forall₂ (ReadsMember lax) ts vs) (hne : ts ≠ [])
    {w : List Byte} (hw : ∀ b ∈ w, isWs b = true) :
    ∀ f r, (commas ts ++ w ++ [125]).length < f → members lax f (commas ts ++ w ++ 125 :: r) = some (vs, r) := by
  induction h with
  | nil => exact absurd rfl hne
  | @cons t v ts vs h1 h2 ih =>
    intro f r hf
    obtain ⟨f, rfl⟩ : ∃ g, f = g + 1 := ⟨f - 1, by omega⟩
    rw [members]
    cases h2 with
    | nil =>
      have e : commas [t] ++ w ++ 125 :: r = t ++ (w ++ 125 :: r) := by simp [commas]
      rw [e, h1 f _ (by simp [commas] at hf; omega) (ends_ws hw (ends_of (by simp) _))]
      simp [skipWs_append hw, skipWs_cons (b := 125) (by decide)]
    | @cons u v' ts vs h2 h3 =>
      have e : commas (t :: u :: ts) ++ w ++ 125 :: r = t ++ (44 :: (commas (u :: ts) ++ w ++ 125 :: r)) := by simp [commas]
      rw [e, h1 f _ (by simp [commas] at hf; omega) (ends_of (by simp) _)]
      have := ih (by simp) f r (by simp [commas] at hf ⊢; omega)
      simp only [skipWs_cons (b := 44) (by decide), if_pos]
      rw [this]; rfl

theorem reads_arr {ts : List (List Byte)} {vs : List JVal} (h : List.Forall₂ (Reads lax) ts vs)
    {w : List Byte} (hw : ∀ b ∈ w, isWs b = true) : Reads lax (91 :: commas ts ++ w ++ [93]) (.arr vs) := by
  intro f r hf hr
  obtain ⟨f, rfl⟩ : ∃ g, f = g + 1 := ⟨f - 1, by omega⟩
  have e : 91 :: commas ts ++ w ++ [93] ++ r = 91 :: (commas ts ++ w ++ 93 :: r) := by simp
  rw [e, value, skipWs_cons (by decide)]
  simp only
  rw [if_pos trivial]
  cases h with
  | nil => simp [commas, skipWs_append hw, skipWs_cons (b := 93) (by decide)]
  | @cons t v ts vs h1 h2 =>
    obtain ⟨r', e', hr'⟩ := commas_front (ts := ts) w hw 93 (.inl rfl) r t
    obtain ⟨b, u, hb, hne⟩ := h1.front r' hr'
    rw [if_neg (by rw [e', hb]; simpa using hne), elements_commas (.cons h1 h2) (by simp) hw f r (by simp at hf ⊢; omega)]
    rfl

theorem reads_obj {ts : List (List Byte)} {vs : List (List Byte × JVal)} (h : List.Forall₂ (ReadsMember lax) ts vs)
    {w : List Byte} (hw : ∀ b ∈ w, isWs b = true) : Reads lax (123 :: commas ts ++ w ++ [125]) (.obj vs) := by
  intro f r hf hr
  obtain ⟨f, rfl⟩ : ∃ g, f = g + 1 := ⟨f - 1, by omega⟩
  have e : 123 :: commas ts ++ w ++ [125] ++ r = 123 :: (commas ts ++ w ++ 125 :: r) := by simp
  rw [e, value, skipWs_cons (by decide)]
  simp only
  rw [if_neg (by decide), if_pos trivial]
  cases h with
  | nil => simp [commas, skipWs_append hw, skipWs_cons (b := 125) (by decide)]
  | @cons t v ts vs h1 h2 =>
    obtain ⟨r', e', hr'⟩ := commas_front (ts := ts) w hw 125 (.inr rfl) r t
    obtain ⟨b, u, hb, hne⟩ := h1.front r' hr'
    rw [if_neg (by rw [e', hb]; simpa using hne), members_commas (.cons h1 h2) (by simp) hw f r (by simp at hf ⊢; omega)]
    rfl

theorem readWith_of {t : List Byte} {v : JVal} (h : Reads lax t v) : readWith lax t = some v := by
  have := h (t.length + 2) [] (by omega) ends_nil
  rw [List.append_nil] at this
  simp [readWith, this, skipWs]

theorem read_of {t : List Byte} {v : JVal} (h : Reads Bool.false t v) : read t = some v := readWith_of h

/-! ### What the printing loops give -/

theorem printItems_commas (ws : List Byte) (ts : List (List Byte)) : printItems [] (44 :: ws) ts =
    match ts with | [] => [] | t :: ts => commas (t :: ts.map fun t => ws ++ t) := by
  cases ts with
  | nil => rfl
  | cons t ts =>
    simp only
    have : ∀ p t, printItems p (44 :: ws) (t :: ts) = p ++ commas (t :: ts.map fun t => ws ++ t) := by
      induction ts with
      | nil => intro p t; simp [printItems, commas]
      | cons u ts ih =>
        intro p t
        rw [printItems, ih]
        cases ts <;> simp [commas]
    simpa using this [] t

theorem reads_items {ws : List Byte} (hws : ∀ b ∈ ws, isWs b = true) {ts : List (List Byte)} {vs : List JVal} (h : List.Forall₂ (Reads lax) ts vs)
    {w : List Byte} (hw : ∀ b ∈ w, isWs b = true) : Reads lax (91 :: printItems [] (44 :: ws) ts ++ w ++ [93]) (.arr vs) := by
  rw [printItems_commas]
  cases h with
  | nil => exact reads_arr .nil hw
  | @cons t v ts vs h1 h2 =>
    refine reads_arr (.cons h1 ?_) hw
    exact List.forall₂_map_left_iff.2 (h2.imp fun t v ht => ht.ws hws)

end Json
end Libmorph
