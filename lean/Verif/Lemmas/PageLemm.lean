import Verif.Lemmas.PageForms
/-
The lemmas of a word as a list of texts, whatever buffer and code page they go to.
-/
namespace Libmorph

variable {P : Page} {enc : Byte → List Byte} {known : Byte → Prop} {α : Type}

abbrev App := Coder → List Byte → Option (Bool × Coder)

/-- The dictionary form of a lexeme. -/
def dictText (im : RusImages) (dwsets : Nat) (stem suffix : List Byte) (lextem : RusStem) (fx : FlexInfo) :
    Option (Except Int (List Byte)) :=
  match rusDictForms im 256 stem suffix lextem fx dwsets with
  | none => none
  | some (nforms, out) =>
    if nforms ≤ 0 then some (.error nforms)
    else
      match pickLeast (nforms.toNat - 1) out out with
      | none => none
      | some sel =>
        match strLen sel with
        | none => none
        | some ccform => (capSet rusTab sel ccform lextem.minCap).map fun sel => .ok (sel.take ccform)

theorem dictText_error {im : RusImages} {dwsets : Nat} {stem suffix : List Byte} {lextem : RusStem} {fx : FlexInfo} {e : Int}
    (h : dictText im dwsets stem suffix lextem fx = some (.error e)) : e ≤ 0 := by
  simp only [dictText] at h
  split at h
  · cases h
  · split at h
    · cases h; assumption
    · split at h
      · cases h
      · split at h
        · cases h
        · rename_i k _
          simp only [Option.map_eq_some_iff] at h
          obtain ⟨_, _, h⟩ := h
          cases h

/-- The dictionary form of a new lemma goes to the buffer. -/
def textForm (app : App) (txt : Option (Except Int (List Byte))) (merge : Bool) (s : LemmState) : Option (Except Int Unit × LemmState) :=
  if s.forms.buf.isSome && !merge then
    match txt with
    | none => none
    | some (.error e) => some (.error e, s)
    | some (.ok t) =>
      match app s.forms t with
      | none => none
      | some (true, c) => some (.ok (), { s with forms := c })
      | some (false, c) => some (.error LEMMBUFF_FAILED, { s with forms := c })
  else some (.ok (), s)

theorem rusLemmForm_text (im : RusImages) (dwsets : Nat) (stem suffix : List Byte) (lextem : RusStem) (fx : FlexInfo) (merge : Bool)
    (s : LemmState) : rusLemmForm im dwsets stem suffix lextem fx merge s =
      textForm Coder.appendz (dictText im dwsets stem suffix lextem fx) merge s := by
  simp only [rusLemmForm, textForm, dictText]
  split
  · rcases rusDictForms im 256 stem suffix lextem fx dwsets with _ | ⟨n, out⟩
    · rfl
    · simp only [bind, Option.bind_some]
      split
      · rfl
      · rcases pickLeast (n.toNat - 1) out out with _ | sel
        · rfl
        · simp only [Option.bind_some]
          rcases strLen sel with _ | k
          · rfl
          · simp only [Option.bind_some]
            rcases capSet rusTab sel k lextem.minCap with _ | sel
            · rfl
            · simp only [Option.bind_some, Option.map_some]
              rcases s.forms.appendz (sel.take k) with _ | ⟨_ | _, c⟩ <;> rfl
  · rfl

theorem rusLemmFormIn_text (im : RusImages) (dwsets : Nat) (stem suffix : List Byte) (lextem : RusStem) (fx : FlexInfo) (merge : Bool)
    (s : LemmState) : rusLemmFormIn P im dwsets stem suffix lextem fx merge s =
      textForm (Coder.appendzIn P) (dictText im dwsets stem suffix lextem fx) merge s := by
  simp only [rusLemmFormIn, textForm, dictText]
  split
  · rcases rusDictForms im 256 stem suffix lextem fx dwsets with _ | ⟨n, out⟩
    · rfl
    · simp only [bind, Option.bind_some]
      split
      · rfl
      · rcases pickLeast (n.toNat - 1) out out with _ | sel
        · rfl
        · simp only [Option.bind_some]
          rcases strLen sel with _ | k
          · rfl
          · simp only [Option.bind_some]
            rcases capSet rusTab sel k lextem.minCap with _ | sel
            · rfl
            · simp only [Option.bind_some, Option.map_some]
              rcases s.forms.appendzIn P (sel.take k) with _ | ⟨_ | _, c⟩ <;> rfl
  · rfl

/-- A call of the lemmatizer: the dictionary form, what is stored of a description, the lexeme, its descriptions. -/
abbrev Call := Option (Except Int (List Byte)) × (Gram → Gram) × Nat × List Gram

def Call.Ok (c : Call) : Prop := ∀ e, c.1 = some (.error e) → e ≤ 0

def textCall (app : App) (c : Call) (s : LemmState) : Option (Option Int × LemmState) :=
  match c.2.2.2 with
  | [] => none
  | _ :: _ => lemmCallWith (textForm app c.1) c.2.1 c.2.2.1 c.2.2.2 s

/-- A list of texts as one list. -/
def coded (ts : List (List Byte)) : List Byte := packed (ts.map fun t => t.map (· + 1))

theorem coded_inj {ts us : List (List Byte)} (h : coded ts = coded us) : ts = us := by
  have key : ∀ (t u r q : List Nat), t.map (· + 1) ++ 0 :: r = u.map (· + 1) ++ 0 :: q → t = u ∧ r = q := by
    intro t
    induction t with
    | nil =>
      intro u r q h
      cases u with
      | nil => simpa using h
      | cons => simp at h
    | cons a t ih =>
      intro u r q h
      cases u with
      | nil => simp at h
      | cons b u =>
        simp only [List.map_cons, List.cons_append, List.cons.injEq] at h
        obtain ⟨h1, h2⟩ := ih u r q h.2
        exact ⟨by rw [h1]; simp; omega, h2⟩
  induction ts generalizing us with
  | nil =>
    cases us with
    | nil => rfl
    | cons u us => simp [coded, packed] at h
  | cons t ts ih =>
    cases us with
    | nil => simp [coded, packed] at h
    | cons u us =>
      simp only [coded, List.map_cons, packed_cons] at h
      obtain ⟨h1, h2⟩ := key t u _ _ h
      rw [h1, ih h2]

/-- The buffer that keeps the list of texts, without a limit. -/
def listApp : App := fun c t => c.buf.map fun b => (true, ⟨some (b ++ (t.map (· + 1) ++ [0])), c.pos + 1⟩)

theorem coded_snoc (ts : List (List Byte)) (t : List Byte) : coded (ts ++ [t]) = coded ts ++ (t.map (· + 1) ++ [0]) := by simp [coded, packed]

/-- What is needed of a buffer: `K c x` tells that `c` holds `x`; a text is put behind that, converted, or there is no room. -/
structure AppOk (app : App) (conv : List Byte → List Byte) (K : Coder → List Byte → Prop) (lim : Nat) : Prop where
  pos : ∀ c x, K c x → c.pos = x.length ∧ c.buf.isSome
  put : ∀ c x t, K c x → (∃ c', app c t = some (true, c') ∧ K c' (x ++ (conv t ++ [0]))) ∨
    (∃ c', app c t = some (false, c') ∧ lim ≤ (x ++ (conv t ++ [0])).length)

/-- The records of the state `a` of the list buffer and of the state of another. -/
def RecsRel (conv : List Byte → List Byte) (ts : List (List Byte)) (n : Nat) (l m : Option (List Lemm)) : Prop :=
  (l = none ∧ m = none) ∨ ∃ a b, l = some a ∧ m = some b ∧ a.length = b.length ∧ n ≤ a.length ∧ n = ts.length ∧
    ∀ i x y, a[i]? = some x → b[i]? = some y → x.nlexid = y.nlexid ∧ x.pgrams = y.pgrams ∧ x.ngrams = y.ngrams ∧
      (i < n → y.plemma = (packed ((ts.take i).map conv)).length)

inductive LemmRel (conv : List Byte → List Byte) (K : Coder → List Byte → Prop) (ts : List (List Byte)) : LemmState → LemmState → Prop
  | mk (la ls : Option (List Lemm)) (n : Nat) (c : Coder) (g : Option (List Gram)) (gc : Nat)
      (forms : K c (packed (ts.map conv))) (lemms : RecsRel conv ts n la ls) :
      LemmRel conv K ts ⟨la, n, ⟨some (coded ts), ts.length⟩, g, gc, ts.length⟩ ⟨ls, n, c, g, gc, ts.length⟩

theorem packed_map_snoc (conv : List Byte → List Byte) (ts : List (List Byte)) (t : List Byte) :
    packed ((ts ++ [t]).map conv) = packed (ts.map conv) ++ (conv t ++ [0]) := by simp [packed]

theorem packed_snoc (ts : List (List Byte)) (t : List Byte) : packed (ts ++ [t]) = packed ts ++ (t ++ [0]) := by simp [packed]

/-- The outcome of a step of the list buffer and of the same step of another. -/
def StepRel (conv : List Byte → List Byte) (K : Coder → List Byte → Prop) (lim : Nat) (o o' : Option (Option Int × LemmState)) : Prop :=
  (o = none ∧ o' = none) ∨
  (∃ a s ts, o = some (none, a) ∧ o' = some (none, s) ∧ LemmRel conv K ts a s) ∨
  (∃ e a s, e < 0 ∧ o = some (some e, a) ∧ o' = some (some e, s)) ∨
  (∃ s, o' = some (some LEMMBUFF_FAILED, s) ∧
    ∀ a, o = some (none, a) → ∃ ts, a.forms = ⟨some (coded ts), ts.length⟩ ∧ lim ≤ (packed (ts.map conv)).length)

/-- The state after a lemma has been opened: its record is at the current place. -/
def Opened (conv : List Byte → List Byte) (ts : List (List Byte)) (n : Nat) (ls : Option (List Lemm)) : Prop :=
  ls = none ∨ ∃ m y, ls = some m ∧ m[n]? = some y ∧ y.plemma = (packed (ts.map conv)).length

/-- Opening a lemma. -/
theorem lemmOpen_rel {app : App} {conv : List Byte → List Byte} {K : Coder → List Byte → Prop} {lim : Nat} (hA : AppOk app conv K lim)
    {ts : List (List Byte)} {la ls : Option (List Lemm)} {n : Nat} {c : Coder} {g : Option (List Gram)} {gc : Nat}
    (forms : K c (packed (ts.map conv))) (lemms : RecsRel conv ts n la ls) (id : Nat) (a s : LemmState)
    (ea : a = ⟨la, n, ⟨some (coded ts), ts.length⟩, g, gc, ts.length⟩) (es : s = ⟨ls, n, c, g, gc, ts.length⟩) :
    (lemmOpen id a = none ∧ lemmOpen id s = none) ∨
    (∃ a' s', lemmOpen id a = some (.error LIDSBUFF_FAILED, a') ∧ lemmOpen id s = some (.error LIDSBUFF_FAILED, s')) ∨
    (∃ la' ls', lemmOpen id a = some (.ok true, ⟨la', n, ⟨some (coded ts), ts.length⟩, g, gc, ts.length⟩) ∧
      lemmOpen id s = some (.ok true, ⟨ls', n, c, g, gc, ts.length⟩) ∧ RecsRel conv ts n la' ls') ∨
    (∃ la' ls', lemmOpen id a = some (.ok false, ⟨la', n, ⟨some (coded ts), ts.length⟩, g, gc, ts.length⟩) ∧
      lemmOpen id s = some (.ok false, ⟨ls', n, c, g, gc, ts.length⟩) ∧ RecsRel conv ts n la' ls' ∧ Opened conv ts n ls') := by
  subst ea es
  have hp := (hA.pos _ _ forms).1
  rcases lemms with ⟨rfl, rfl⟩ | ⟨l, m, rfl, rfl, h3, h4, h5, h6⟩
  · exact .inr (.inr (.inr ⟨none, none, rfl, rfl, .inl ⟨rfl, rfl⟩, .inl rfl⟩))
  · have hset : n ≠ l.length → RecsRel conv ts n (some (l.set n ⟨id, ts.length, gc, 0⟩)) (some (m.set n ⟨id, c.pos, gc, 0⟩)) ∧
        Opened conv ts n (some (m.set n ⟨id, c.pos, gc, 0⟩)) := by
      intro hl
      refine ⟨.inr ⟨_, _, rfl, rfl, by simp [h3], by simpa using h4, h5, ?_⟩, .inr ⟨_, ⟨id, c.pos, gc, 0⟩, rfl, ?_, hp⟩⟩
      · intro i x y hx hy
        by_cases hi : i = n
        · subst hi
          rw [List.getElem?_set_self (by omega)] at hx
          rw [List.getElem?_set_self (by omega)] at hy
          cases hx; cases hy
          exact ⟨rfl, rfl, rfl, fun h => absurd h (Nat.lt_irrefl _)⟩
        · rw [List.getElem?_set_ne (by omega)] at hx hy
          exact h6 i x y hx hy
      · rw [List.getElem?_set_self (by omega)]
    simp only [lemmOpen, ← h3]
    by_cases hl : n = l.length
    · simp only [if_pos hl]
      split
      · exact .inr (.inl ⟨_, _, rfl, rfl⟩)
      · split
        · exact .inl ⟨rfl, rfl⟩
        · have i1 : n - 1 < l.length := by omega
          have i2 : n - 1 < m.length := by omega
          rw [List.getElem?_eq_getElem i1, List.getElem?_eq_getElem i2]
          have := h6 (n - 1) _ _ (List.getElem?_eq_getElem i1) (List.getElem?_eq_getElem i2)
          simp only [← this.1]
          split
          · exact .inr (.inl ⟨_, _, rfl, rfl⟩)
          · exact .inr (.inr (.inl ⟨_, _, rfl, rfl, .inr ⟨_, _, rfl, rfl, h3, h4, h5, h6⟩⟩))
    · simp only [if_neg hl]
      obtain ⟨k1, k2⟩ := hset hl
      split
      · exact .inr (.inr (.inr ⟨_, _, rfl, rfl, k1, k2⟩))
      · split
        · exact .inl ⟨rfl, rfl⟩
        · have i1 : n - 1 < l.length := by omega
          have i2 : n - 1 < m.length := by omega
          rw [List.getElem?_eq_getElem i1, List.getElem?_eq_getElem i2]
          have := h6 (n - 1) _ _ (List.getElem?_eq_getElem i1) (List.getElem?_eq_getElem i2)
          simp only [← this.1]
          split
          · exact .inr (.inr (.inr ⟨_, _, rfl, rfl, k1, k2⟩))
          · exact .inr (.inr (.inl ⟨_, _, rfl, rfl, .inr ⟨_, _, rfl, rfl, h3, h4, h5, h6⟩⟩))

/-- The records while a lemma is written: `k` more texts than complete records. -/
def RecsMid (conv : List Byte → List Byte) (ts : List (List Byte)) (n k : Nat) (l m : Option (List Lemm)) : Prop :=
  (l = none ∧ m = none) ∨ ∃ a b, l = some a ∧ m = some b ∧ a.length = b.length ∧ n + k ≤ a.length ∧ n + k = ts.length ∧
    ∀ i x y, a[i]? = some x → b[i]? = some y → x.nlexid = y.nlexid ∧ x.pgrams = y.pgrams ∧ x.ngrams = y.ngrams ∧
      (i < n + k → y.plemma = (packed ((ts.take i).map conv)).length)

theorem hasGram_congr {x y : Lemm} (h1 : x.pgrams = y.pgrams) (h2 : x.ngrams = y.ngrams) (b : List Gram) (g : Gram) :
    hasGram x b g = hasGram y b g := by simp only [hasGram, h1, h2]

theorem gramLoop_congr (put : Gram → Gram) {x y : Lemm} (h1 : x.pgrams = y.pgrams) (h2 : x.ngrams = y.ngrams) (gs b : List Gram) (cur : Nat) :
    gramLoop put (some x) gs b cur = gramLoop put (some y) gs b cur := by
  induction gs generalizing b cur with
  | nil => rfl
  | cons g gs ih =>
    simp only [gramLoop, hasGram_congr h1 h2]
    split
    · rfl
    · rcases hasGram y b g with _ | _ | _
      · rfl
      · exact ih _ _
      · exact ih _ _

/-- The descriptions. -/
theorem lemmGrams_rel {conv : List Byte → List Byte} {ts : List (List Byte)} {la ls : Option (List Lemm)} {n k : Nat} {f c : Coder}
    {g : Option (List Gram)} {gc : Nat} {nb : Int} (lemms : RecsMid conv ts n k la ls) (put : Gram → Gram) (grs : List Gram) (merge : Bool)
    (a s : LemmState) (ea : a = ⟨la, n, f, g, gc, nb⟩) (es : s = ⟨ls, n, c, g, gc, nb⟩) :
    (lemmGrams put grs merge a = none ∧ lemmGrams put grs merge s = none) ∨
    (∃ a' s', lemmGrams put grs merge a = some (.error GRAMBUFF_FAILED, a') ∧ lemmGrams put grs merge s = some (.error GRAMBUFF_FAILED, s')) ∨
    (∃ la' ls' g' gc', lemmGrams put grs merge a = some (.ok (), ⟨la', n, f, g', gc', nb⟩) ∧
      lemmGrams put grs merge s = some (.ok (), ⟨ls', n, c, g', gc', nb⟩) ∧ RecsMid conv ts n k la' ls' ∧ la'.isSome = la.isSome) := by
  subst ea es
  rcases lemms with ⟨rfl, rfl⟩ | ⟨l, m, rfl, rfl, h3, h4, h5, h6⟩
  · exact .inr (.inr ⟨_, _, _, _, rfl, rfl, .inl ⟨rfl, rfl⟩, rfl⟩)
  · cases g with
    | none => exact .inr (.inr ⟨_, _, _, _, rfl, rfl, .inr ⟨_, _, rfl, rfl, h3, h4, h5, h6⟩, rfl⟩)
    | some buf =>
      have hloop : ((if merge then (l[n - 1]?).map some else some none).bind fun last => gramLoop put last grs buf gc) =
          ((if merge then (m[n - 1]?).map some else some none).bind fun last => gramLoop put last grs buf gc) := by
        cases merge with
        | false => rfl
        | true =>
          simp only [if_true]
          by_cases hi : n - 1 < l.length
          · rw [List.getElem?_eq_getElem hi, List.getElem?_eq_getElem (h3 ▸ hi)]
            have := h6 (n - 1) _ _ (List.getElem?_eq_getElem hi) (List.getElem?_eq_getElem (h3 ▸ hi))
            simp only [Option.map_some, Option.bind_some]
            exact gramLoop_congr put this.2.1 this.2.2.1 _ _ _
          · rw [List.getElem?_eq_none (by omega), List.getElem?_eq_none (by omega)]
      have hrew : ∀ (l : List Lemm) (f : Coder), lemmGrams put grs merge ⟨some l, n, f, some buf, gc, nb⟩ =
          (((if merge then (l[n - 1]?).map some else some none).bind fun last => gramLoop put last grs buf gc).bind fun p =>
            if p.1 = [] then
              match l[n]? with
              | none => none
              | some x => some (.ok (), ⟨some (l.set n { x with ngrams := (p.2.2 + 2 ^ 32 - x.pgrams) % 2 ^ 32 }), n, f, some p.2.1, p.2.2, nb⟩)
            else some (.error GRAMBUFF_FAILED, ⟨some l, n, f, some p.2.1, p.2.2, nb⟩)) := by
        intro l f
        simp only [lemmGrams, bind]
        cases merge with
        | false =>
          simp only [Bool.false_eq_true, if_false, Option.bind_some]
          rcases gramLoop put none grs buf gc with _ | ⟨p1, p2, p3⟩
          · rfl
          · simp only [Option.bind_some]
            split
            · rcases l[n]? with _ | x <;> rfl
            · rfl
        | true =>
          simp only [if_true]
          rcases l[n - 1]? with _ | last
          · rfl
          · simp only [Option.map_some, Option.bind_some]
            rcases gramLoop put (some last) grs buf gc with _ | ⟨p1, p2, p3⟩
            · rfl
            · simp only [Option.bind_some]
              split
              · rcases l[n]? with _ | x <;> rfl
              · rfl
      rw [hrew, hrew, hloop]
      rcases ((if merge then (m[n - 1]?).map some else some none).bind fun last => gramLoop put last grs buf gc) with _ | ⟨p1, p2, p3⟩
      · exact .inl ⟨rfl, rfl⟩
      · simp only [Option.bind_some]
        by_cases hp : p1 = []
        · simp only [if_pos hp]
          by_cases hi : n < l.length
          · have hi' : n < m.length := h3 ▸ hi
            rw [List.getElem?_eq_getElem hi, List.getElem?_eq_getElem hi']
            have hx := h6 n _ _ (List.getElem?_eq_getElem hi) (List.getElem?_eq_getElem hi')
            refine .inr (.inr ⟨_, _, _, _, rfl, rfl, .inr ⟨_, _, rfl, rfl, by simp [h3], by simpa using h4, h5, ?_⟩, rfl⟩)
            intro i x y hix hiy
            by_cases hin : i = n
            · subst hin
              rw [List.getElem?_set_self (by omega)] at hix
              rw [List.getElem?_set_self (by omega)] at hiy
              cases hix; cases hiy
              refine ⟨hx.1, hx.2.1, ?_, hx.2.2.2⟩
              simp only [hx.2.1]
            · rw [List.getElem?_set_ne (by omega)] at hix hiy
              exact h6 i x y hix hiy
          · rw [List.getElem?_eq_none (by omega), List.getElem?_eq_none (by omega)]
            exact .inl ⟨rfl, rfl⟩
        · simp only [if_neg hp]
          exact .inr (.inl ⟨_, _, rfl, rfl⟩)

theorem lemmOpen_forms {id : Nat} {s s' : LemmState} {r : Except Int Bool} (h : lemmOpen id s = some (r, s')) : s'.forms = s.forms := by
  simp only [lemmOpen] at h
  repeat' split at h
  all_goals first | cases h; rfl | (cases h)

theorem lemmGrams_forms {put : Gram → Gram} {grs : List Gram} {merge : Bool} {s s' : LemmState} {r : Except Int Unit}
    (h : lemmGrams put grs merge s = some (r, s')) : s'.forms = s.forms := by
  simp only [lemmGrams] at h
  split at h
  · cases merge <;> (
      simp only [bind, Bool.false_eq_true, if_false, if_true, Option.bind_eq_some_iff] at h
      obtain ⟨last, -, p, -, h⟩ := h
      split at h
      · split at h
        · cases h
        · cases h; rfl
      · cases h; rfl)
  · cases h; rfl

/-- The list of texts only grows. -/
theorem textCall_grows {c : Call} {a a' : LemmState} {ts : List (List Byte)} {r : Option Int}
    (ha : a.forms = ⟨some (coded ts), ts.length⟩) (h : textCall listApp c a = some (r, a')) :
    ∃ us, a'.forms = ⟨some (coded (ts ++ us)), (ts ++ us).length⟩ := by
  have h0 : ∃ us, a.forms = ⟨some (coded (ts ++ us)), (ts ++ us).length⟩ := ⟨[], by simpa using ha⟩
  simp only [textCall] at h
  split at h
  · cases h
  · simp only [lemmCallWith, bind, pure] at h
    split at h
    · cases h; exact h0
    · rw [Option.bind_eq_some_iff] at h
      obtain ⟨⟨r1, a1⟩, h1, h⟩ := h
      have f1 := lemmOpen_forms h1
      rw [← f1] at h0 ha
      cases r1 with
      | error e => cases h; exact h0
      | ok merge =>
        simp only [Option.bind_eq_some_iff] at h
        obtain ⟨⟨r2, a2⟩, h2, h⟩ := h
        have h2' : ∃ us, a2.forms = ⟨some (coded (ts ++ us)), (ts ++ us).length⟩ := by
          simp only [textForm] at h2
          split at h2
          · split at h2
            · cases h2
            · cases h2; exact h0
            · rename_i t _
              simp only [listApp, ha, Option.map_some] at h2
              cases h2
              exact ⟨[t], by simp [coded_snoc]⟩
          · cases h2; exact h0
        cases r2 with
        | error e => cases h; exact h2'
        | ok u =>
          simp only [Option.bind_eq_some_iff] at h
          obtain ⟨⟨r3, a3⟩, h3, h⟩ := h
          have f3 := lemmGrams_forms h3
          rw [← f3] at h2'
          cases r3 with
          | error e => cases h; exact h2'
          | ok u =>
            simp only at h
            split at h
            · cases h; exact h2'
            · cases h; exact h2'

theorem retInt_neg {e : Int} (h : e < 0) : retInt e = some e := by rw [retInt, if_neg (by omega)]

theorem RecsRel.mid {conv : List Byte → List Byte} {ts : List (List Byte)} {n : Nat} {la ls : Option (List Lemm)} (h : RecsRel conv ts n la ls) :
    RecsMid conv ts n 0 la ls := h

theorem RecsMid.rel {conv : List Byte → List Byte} {ts : List (List Byte)} {n : Nat} {la ls : Option (List Lemm)} (h : RecsMid conv ts n 0 la ls) :
    RecsRel conv ts n la ls := h

theorem RecsRel.snoc {conv : List Byte → List Byte} {ts : List (List Byte)} {n : Nat} {la ls : Option (List Lemm)} (h : RecsRel conv ts n la ls)
    (ho : Opened conv ts n ls) (t : List Byte) : RecsMid conv (ts ++ [t]) n 1 la ls := by
  rcases h with ⟨rfl, rfl⟩ | ⟨l, m, rfl, rfl, h3, h4, h5, h6⟩
  · exact .inl ⟨rfl, rfl⟩
  · rcases ho with ho | ⟨m', y0, ho, ho1, ho2⟩
    · cases ho
    · cases ho
      have hn : n < m.length := by
        apply Nat.lt_of_not_le
        intro hh
        rw [List.getElem?_eq_none hh] at ho1
        cases ho1
      refine .inr ⟨l, m, rfl, rfl, h3, by omega, by simp [h5], fun i x y hx hy => ?_⟩
      obtain ⟨k1, k2, k3, k4⟩ := h6 i x y hx hy
      refine ⟨k1, k2, k3, fun hi => ?_⟩
      rw [List.take_append_of_le_length (by omega)]
      by_cases hin : i < n
      · exact k4 hin
      · have : i = n := by omega
        subst this
        rw [ho1] at hy
        cases hy
        rw [ho2, h5, List.take_length]

theorem RecsMid.isSome {conv : List Byte → List Byte} {ts : List (List Byte)} {n k : Nat} {la ls : Option (List Lemm)} (h : RecsMid conv ts n k la ls) :
    la.isSome = ls.isSome := by
  rcases h with ⟨rfl, rfl⟩ | ⟨a, b, rfl, rfl, -⟩ <;> rfl

theorem textCall_rel {app : App} {conv : List Byte → List Byte} {K : Coder → List Byte → Prop} {lim : Nat} (hA : AppOk app conv K lim)
    {ts : List (List Byte)} {a s : LemmState} (h : LemmRel conv K ts a s) (c : Call) (hc : c.Ok) :
    StepRel conv K lim (textCall listApp c a) (textCall app c s) := by
  obtain ⟨txt, put, id, grs⟩ := c
  simp only [textCall]
  cases grs with
  | nil => exact .inl ⟨rfl, rfl⟩
  | cons g0 gs =>
    simp only
    cases h with
    | mk la ls n c g gc forms lemms =>
    have hb := (hA.pos _ _ forms).2
    simp only [lemmCallWith, bind, pure]
    have hneg : ¬ ((ts.length : Int) < 0) := by omega
    rw [if_neg hneg, if_neg hneg]
    rcases lemmOpen_rel (g := g) (gc := gc) hA forms lemms id _ _ rfl rfl with ⟨h1, h2⟩ | ⟨a', s', h1, h2⟩ | ⟨la', ls', h1, h2, hr⟩ | ⟨la', ls', h1, h2, hr, ho⟩
    · rw [h1, h2]; exact .inl ⟨rfl, rfl⟩
    · rw [h1, h2]
      exact .inr (.inr (.inl ⟨LIDSBUFF_FAILED, _, _, by decide, rfl, rfl⟩))
    · -- merged into the lemma before
      rw [h1, h2]
      simp only [Option.bind_some, textForm, Bool.not_true, Bool.and_false, Bool.false_eq_true, if_false]
      rcases lemmGrams_rel (f := ⟨some (coded ts), ts.length⟩) (c := c) (g := g) (gc := gc) (nb := ts.length) hr.mid put (g0 :: gs) true _ _ rfl rfl with
        ⟨k1, k2⟩ | ⟨a', s', k1, k2⟩ | ⟨la2, ls2, g', gc', k1, k2, k3, k4⟩
      · rw [k1, k2]; exact .inl ⟨rfl, rfl⟩
      · rw [k1, k2]
        exact .inr (.inr (.inl ⟨GRAMBUFF_FAILED, _, _, by decide, rfl, rfl⟩))
      · rw [k1, k2]
        exact .inr (.inl ⟨_, _, ts, rfl, rfl, .mk _ _ _ _ _ _ forms k3.rel⟩)
    · rw [h1, h2]
      simp only [Option.bind_some, textForm, hb, Bool.not_false, Bool.and_true, if_true, Option.isSome_some]
      rcases txt with _ | e | t
      · exact .inl ⟨rfl, rfl⟩
      · simp only [Option.bind_some]
        have he : e ≤ 0 := hc e rfl
        by_cases h0 : e = 0
        · subst h0
          exact .inr (.inl ⟨_, _, ts, rfl, rfl, .mk _ _ _ _ _ _ forms hr⟩)
        · have : e < 0 := by omega
          rw [retInt_neg this]
          exact .inr (.inr (.inl ⟨e, _, _, this, rfl, rfl⟩))
      · simp only [listApp, Option.map_some, Option.bind_some]
        rcases hA.put _ _ t forms with ⟨c', p1, p2⟩ | ⟨c', p1, p2⟩
        · rw [p1]
          simp only [Option.bind_some]
          rw [← packed_map_snoc] at p2
          have e1 : coded ts ++ (t.map (· + 1) ++ [0]) = coded (ts ++ [t]) := (coded_snoc ts t).symm
          have e2 : ts.length + 1 = (ts ++ [t]).length := by simp
          rw [e1, e2]
          rcases lemmGrams_rel (f := ⟨some (coded (ts ++ [t])), (ts ++ [t]).length⟩) (c := c') (g := g) (gc := gc) (nb := ts.length) (hr.snoc ho t) put (g0 :: gs) false _ _ rfl rfl with
            ⟨k1, k2⟩ | ⟨a', s', k1, k2⟩ | ⟨la2, ls2, g', gc', k1, k2, k3, k4⟩
          · rw [k1, k2]; exact .inl ⟨rfl, rfl⟩
          · rw [k1, k2]
            exact .inr (.inr (.inl ⟨GRAMBUFF_FAILED, _, _, by decide, rfl, rfl⟩))
          · rw [k1, k2]
            have hs := k3.isSome
            simp only [Option.bind_some, Bool.false_eq_true, if_false, ← hs]
            have e3 : (ts.length : Int) + 1 = (ts ++ [t]).length := by simp
            rw [e3]
            refine .inr (.inl ⟨_, _, ts ++ [t], rfl, rfl, .mk _ _ _ _ _ _ p2 ?_⟩)
            rcases k3 with ⟨rfl, rfl⟩ | ⟨l, m, rfl, rfl, q1, q2, q3, q4⟩
            · exact .inl ⟨rfl, rfl⟩
            · simp only [Option.isSome_some, if_true]
              exact .inr ⟨_, _, rfl, rfl, q1, q2, q3, q4⟩
        · rw [p1]
          simp only [Option.bind_some]
          refine .inr (.inr (.inr ⟨_, rfl, fun a' ha' => ⟨ts ++ [t], ?_, ?_⟩⟩))
          · rw [Option.bind_eq_some_iff] at ha'
            obtain ⟨⟨r3, a3⟩, h3, ha'⟩ := ha'
            have f3 := lemmGrams_forms h3
            cases r3 with
            | error e =>
              simp only [Option.some.injEq, Prod.mk.injEq] at ha'
              obtain ⟨-, rfl⟩ := ha'
              rw [f3]
              simp [coded_snoc]
            | ok u =>
              simp only [Bool.false_eq_true, if_false] at ha'
              cases ha'
              simp only [f3]
              simp [coded_snoc]
          · rwa [packed_map_snoc]

/-- A run of calls. -/
theorem textRun_rel {app : App} {conv : List Byte → List Byte} {K : Coder → List Byte → Prop} {lim : Nat} (hA : AppOk app conv K lim)
    (cs : List Call) (hcs : ∀ c ∈ cs, c.Ok) (ts : List (List Byte)) (a s : LemmState) (h : LemmRel conv K ts a s) :
    StepRel conv K lim (runList (textCall listApp) cs a) (runList (textCall app) cs s) := by
  induction cs generalizing ts a s with
  | nil => exact .inr (.inl ⟨a, s, ts, rfl, rfl, h⟩)
  | cons c cs ih =>
    simp only [runList]
    rcases textCall_rel hA h c (hcs c (by simp)) with ⟨h1, h2⟩ | ⟨a', s', ts', h1, h2, h3⟩ | ⟨e, a', s', he, h1, h2⟩ | ⟨s', h1, h2⟩
    · rw [h1, h2]; exact .inl ⟨rfl, rfl⟩
    · rw [h1, h2]
      exact ih (fun c hc => hcs c (by simp [hc])) ts' a' s' h3
    · rw [h1, h2]
      exact .inr (.inr (.inl ⟨e, _, _, he, rfl, rfl⟩))
    · rw [h1]
      refine .inr (.inr (.inr ⟨s', rfl, fun b hb => ?_⟩))
      rcases hx : textCall listApp c a with _ | ⟨_ | r, a1⟩
      · rw [hx] at hb; cases hb
      · rw [hx] at hb
        obtain ⟨us, h3, h4⟩ := h2 a1 hx
        clear ih hcs h hx h1 h2
        simp only at hb
        induction cs generalizing a1 us with
        | nil => cases hb; exact ⟨us, h3, h4⟩
        | cons c cs ih =>
          simp only [runList] at hb
          rcases hx : textCall listApp c a1 with _ | ⟨_ | r, a2⟩
          · rw [hx] at hb; cases hb
          · rw [hx] at hb
            obtain ⟨vs, h5⟩ := textCall_grows h3 hx
            refine ih a2 hb _ h5 ?_
            have : (packed (us.map conv)).length ≤ (packed ((us ++ vs).map conv)).length := by simp [packed]
            omega
          · rw [hx] at hb; cases hb
      · rw [hx] at hb; cases hb

theorem appOk_native (B : List Byte) : AppOk Coder.appendz id (fun c x => c.Holds B x) B.length where
  pos c x h := ⟨h.pos, by rcases h.buf with ⟨-, h⟩ | ⟨-, -, h⟩ <;> simp [h]⟩
  put c x t h := by
    obtain ⟨h1, h2⟩ := Coder.appendz_eq h t
    by_cases hr : x.length + t.length + 2 ≤ B.length
    · exact .inl (h1 hr)
    · obtain ⟨c', k1, -⟩ := h2 (by omega)
      refine .inr ⟨c', k1, ?_⟩
      simp only [id, List.length_append, List.length_singleton]; omega

theorem appOk_page (hP : P.Ok enc known) (B : List Byte) : AppOk (Coder.appendzIn P) (inPage enc) (fun c x => c.HoldsIn B x) B.length where
  pos c x h := ⟨h.pos, by simp [h.buf]⟩
  put c x t h := by
    rcases Coder.appendzIn_eq hP h t with h1 | ⟨c', k1, -, k2⟩
    · exact .inl h1
    · exact .inr ⟨c', k1, by omega⟩

/-- The calls of a word. -/
def callOf (im : RusImages) (dwsets : Nat) (locase junk : List Byte) (v : RusVisit) : Call :=
  (dictText im dwsets (stemOf locase junk v.2.2.1) v.2.2.2.1 v.2.1 ⟨(v.2.2.2.2.headD ⟨0, 0, 0, 0⟩).grInfo, (v.2.2.2.2.headD ⟨0, 0, 0, 0⟩).bFlags⟩,
    rusPut v.2.1, v.1, v.2.2.2.2)

theorem callOf_ok (im : RusImages) (dwsets : Nat) (locase junk : List Byte) (v : RusVisit) : (callOf im dwsets locase junk v).Ok :=
  fun _ h => dictText_error h

theorem rusLemmCall_text (im : RusImages) (dwsets : Nat) (locase junk : List Byte) (v : RusVisit) (s : LemmState) :
    rusLemmCall im dwsets v.1 v.2.1 (stemOf locase junk v.2.2.1) v.2.2.2.1 v.2.2.2.2 s = textCall Coder.appendz (callOf im dwsets locase junk v) s := by
  obtain ⟨id, st, fr, sx, grs⟩ := v
  cases grs with
  | nil => rfl
  | cons g gs =>
    simp only [rusLemmCall, textCall, callOf, List.headD_cons]
    congr 1
    funext m s
    exact rusLemmForm_text ..

theorem rusLemmCallIn_text (im : RusImages) (dwsets : Nat) (locase junk : List Byte) (v : RusVisit) (s : LemmState) :
    rusLemmCallIn P im dwsets v.1 v.2.1 (stemOf locase junk v.2.2.1) v.2.2.2.1 v.2.2.2.2 s =
      textCall (Coder.appendzIn P) (callOf im dwsets locase junk v) s := by
  obtain ⟨id, st, fr, sx, grs⟩ := v
  cases grs with
  | nil => rfl
  | cons g gs =>
    simp only [rusLemmCallIn, textCall, callOf, List.headD_cons]
    congr 1
    funext m s
    exact rusLemmFormIn_text ..

/-- The number returned. -/
def lemmAnswer (r : Option (Option Int × LemmState)) : Option (Int × LemmState) :=
  match r with
  | none => none
  | some (some e, s) => if e < 0 then some (e, s) else some (s.nbuilt, s)
  | some (none, s) => some (s.nbuilt, s)

theorem rusPrepare_error {w : List Byte} {dwsets : Nat} {e : Int} (h : rusPrepare w dwsets = some (.error e)) : e = 0 ∨ e = WORDBUFF_FAILED := by
  simp only [rusPrepare] at h
  generalize rusCanonic w = x at h
  rcases x with _ | _ | ⟨a, b⟩
  · cases h
  · cases h; exact .inr rfl
  · simp only [bind, Option.bind_some] at h
    split at h
    · cases h; exact .inl rfl
    · split at h
      · cases h; exact .inl rfl
      · cases h

theorem lemm_start {app : App} {conv : List Byte → List Byte} {K : Coder → List Byte → Prop} {lim : Nat} (_hA : AppOk app conv K lim) {c : Coder} (hc : K c [])
    (L : Option (List Lemm)) (G : Option (List Gram)) :
    LemmRel conv K [] ⟨L, 0, ⟨some [], 0⟩, G, 0, 0⟩ ⟨L, 0, c, G, 0, 0⟩ := by
  refine .mk L L 0 c G 0 (by simpa [packed] using hc) ?_
  cases L with
  | none => exact .inl ⟨rfl, rfl⟩
  | some l =>
    refine .inr ⟨l, l, rfl, rfl, rfl, by simp, rfl, fun i x y hx hy => ?_⟩
    rw [hx] at hy; cases hy
    exact ⟨rfl, rfl, rfl, fun h => absurd h (by simp)⟩

theorem sameRecords_of {conv : List Byte → List Byte} (hconv : conv = inPage enc) {ts : List (List Byte)} {n : Nat} {la ls lt : Option (List Lemm)}
    (h1 : RecsRel id ts n la ls) (h2 : RecsRel conv ts n la lt) : SameRecords enc ts ls lt := by
  subst hconv
  rcases h1 with ⟨rfl, rfl⟩ | ⟨a, b, rfl, rfl, h3, h4, h5, h6⟩
  · rcases h2 with ⟨-, rfl⟩ | ⟨a, b, h, -⟩
    · exact .inl ⟨rfl, rfl⟩
    · cases h
  · rcases h2 with ⟨h, -⟩ | ⟨a', b', h, rfl, k3, k4, k5, k6⟩
    · cases h
    · cases h
      refine .inr ⟨b, b', rfl, rfl, by omega, by omega, fun i x y hx hy => ?_⟩
      have hi : i < a.length := by
        apply Nat.lt_of_not_le
        intro hh
        rw [List.getElem?_eq_none (by omega)] at hx
        cases hx
      obtain ⟨p1, p2, p3, p4⟩ := h6 i _ x (List.getElem?_eq_getElem hi) hx
      obtain ⟨q1, q2, q3, q4⟩ := k6 i _ y (List.getElem?_eq_getElem hi) hy
      refine ⟨by rw [← p1, q1], by rw [← p2, q2], by rw [← p3, q3], fun hin => ⟨?_, q4 (by omega)⟩⟩
      have := p4 (by omega)
      simpa using this

theorem sameLemmas_of (hP : P.Ok enc known) (cs : List Call) (hcs : ∀ c ∈ cs, c.Ok) (ok : Bool) (L : Option (List Lemm)) (G : Option (List Gram))
    {native page : List Byte → Option (Int × LemmState)}
    (hn : ∀ B, native B = lemmAnswer (runThen cs ok (textCall Coder.appendz) ⟨L, 0, ⟨some B, 0⟩, G, 0, 0⟩))
    (hp : ∀ B, page B = lemmAnswer (runThen cs ok (textCall (Coder.appendzIn P)) ⟨L, 0, ⟨some B, 0⟩, G, 0, 0⟩)) :
    SameLemmas enc native page := by
  have rn := fun B => textRun_rel (appOk_native B) cs hcs [] _ _ (lemm_start (appOk_native B) (c := ⟨some B, 0⟩) ⟨rfl, by simp, .inl ⟨rfl, rfl⟩⟩ L G)
  have rp := fun B => textRun_rel (appOk_page hP B) cs hcs [] _ _ (lemm_start (appOk_page hP B) (c := ⟨some B, 0⟩) ⟨rfl, by simp, rfl⟩ L G)
  generalize runList (textCall listApp) cs ⟨L, 0, ⟨some [], 0⟩, G, 0, 0⟩ = o at rn rp
  have hneg : ¬ (0 : Int) ≤ LEMMBUFF_FAILED := by decide
  have hlem : ∀ s, lemmAnswer (some (some LEMMBUFF_FAILED, s)) = some (LEMMBUFF_FAILED, s) := fun s => by
    simp only [lemmAnswer]; rw [if_pos (by decide)]
  have herr : ∀ e s, e < 0 → lemmAnswer (some (some e, s)) = some (e, s) := fun e s h => by simp only [lemmAnswer]; rw [if_pos h]
  constructor
  · intro B n s hB h0
    rw [hn B, runThen] at hB
    rcases rn B with ⟨h1, h2⟩ | ⟨a, s', ts, h1, h2, h3⟩ | ⟨e, a, s', he, h1, h2⟩ | ⟨s', h2, -⟩
    · rw [h2] at hB; cases hB
    · rw [h2] at hB
      cases ok with
      | false => cases hB
      | true =>
        cases hB
        obtain ⟨la, ls, n, c, g, gc, hf, hl⟩ := h3
        simp only [List.map_id] at hf
        refine ⟨ts, rfl, hf.filled, fun B' hB' => ?_, fun C => ?_⟩
        · rw [hn B', runThen]
          rcases rn B' with ⟨k1, k2⟩ | ⟨a', t, ts', k1, k2, k3⟩ | ⟨e, a', t, he, k1, k2⟩ | ⟨t, k2, k3⟩
          · rw [h1] at k1; cases k1
          · rw [h1] at k1
            simp only [Option.some.injEq, Prod.mk.injEq, true_and] at k1
            obtain ⟨lb, lt, n', c', g', gc', hf', hl'⟩ := k3
            simp only [LemmState.mk.injEq, Coder.mk.injEq, Option.some.injEq] at k1
            obtain ⟨rfl, rfl, ⟨hts, -⟩, rfl, rfl, -⟩ := k1
            have := coded_inj hts
            subst this
            simp only [List.map_id] at hf'
            rw [k2]
            exact ⟨_, rfl, hf'.filled⟩
          · rw [h1] at k1; cases k1
          · obtain ⟨us, q1, q2⟩ := k3 _ h1
            simp only [Coder.mk.injEq, Option.some.injEq] at q1
            have := coded_inj q1.1
            subst this
            simp only [List.map_id] at q2
            omega
        rw [hp C, runThen]
        rcases rp C with ⟨k1, k2⟩ | ⟨a', t, ts', k1, k2, k3⟩ | ⟨e, a', t, he, k1, k2⟩ | ⟨t, k2, k3⟩
        · rw [h1] at k1; cases k1
        · rw [h1] at k1
          simp only [Option.some.injEq, Prod.mk.injEq, true_and] at k1
          obtain ⟨lb, lt, n', c', g', gc', hf', hl'⟩ := k3
          simp only [LemmState.mk.injEq, Coder.mk.injEq, Option.some.injEq] at k1
          obtain ⟨rfl, rfl, ⟨hts, -⟩, rfl, rfl, -⟩ := k1
          have := coded_inj hts
          subst this
          rw [k2]
          refine ⟨fun _ => ⟨_, rfl, hf'.filled, rfl, sameRecords_of rfl hl hl'⟩, fun hh => ?_⟩
          have := hf'.room
          omega
        · rw [h1] at k1; cases k1
        · obtain ⟨us, q1, q2⟩ := k3 _ h1
          simp only [Coder.mk.injEq, Option.some.injEq] at q1
          have := coded_inj q1.1
          subst this
          rw [k2]
          exact ⟨fun hh => by omega, fun _ => ⟨_, hlem _⟩⟩
    · rw [h2, herr _ _ he] at hB
      cases hB; omega
    · rw [h2, hlem] at hB
      cases hB
      exact absurd h0 hneg
  · intro C n t hC h0
    rw [hp C, runThen] at hC
    rcases rp C with ⟨h1, h2⟩ | ⟨a, s', ts, h1, h2, h3⟩ | ⟨e, a, s', he, h1, h2⟩ | ⟨s', h2, -⟩
    · rw [h2] at hC; cases hC
    · rw [h2] at hC
      cases ok with
      | false => cases hC
      | true =>
        cases hC
        obtain ⟨la, ls, n, c, g, gc, hf, hl⟩ := h3
        refine ⟨ts, rfl, hf.filled, hf.room, fun B => ?_⟩
        rw [hn B, runThen]
        rcases rn B with ⟨k1, k2⟩ | ⟨a', t, ts', k1, k2, k3⟩ | ⟨e, a', t, he, k1, k2⟩ | ⟨t, k2, k3⟩
        · rw [h1] at k1; cases k1
        · rw [h1] at k1
          simp only [Option.some.injEq, Prod.mk.injEq, true_and] at k1
          obtain ⟨lb, lt, n', c', g', gc', hf', hl'⟩ := k3
          simp only [LemmState.mk.injEq, Coder.mk.injEq, Option.some.injEq] at k1
          obtain ⟨rfl, rfl, ⟨hts, -⟩, rfl, rfl, -⟩ := k1
          have := coded_inj hts
          subst this
          simp only [List.map_id] at hf'
          rw [k2]
          refine ⟨fun _ => ⟨_, rfl, hf'.filled, rfl, sameRecords_of rfl hl' hl⟩, fun hh => ?_⟩
          have := hf'.room
          omega
        · rw [h1] at k1; cases k1
        · obtain ⟨us, q1, q2⟩ := k3 _ h1
          simp only [Coder.mk.injEq, Option.some.injEq] at q1
          have := coded_inj q1.1
          subst this
          simp only [List.map_id] at q2
          rw [k2]
          exact ⟨fun hh => by omega, fun _ => ⟨_, hlem _⟩⟩
    · rw [h2, herr _ _ he] at hC
      cases hC; omega
    · rw [h2, hlem] at hC
      cases hC
      exact absurd h0 hneg
  · intro B e s hB h0 h1 C
    rw [hn B, runThen] at hB
    rw [hp C, runThen]
    rcases rn B with ⟨h2, h3⟩ | ⟨a, s', ts, h2, h3, h4⟩ | ⟨e', a, s', he, h2, h3⟩ | ⟨s', h3, -⟩
    · rw [h3] at hB; cases hB
    · rw [h3] at hB
      cases ok with
      | false => cases hB
      | true =>
        cases hB
        obtain ⟨la, ls, n, c, g, gc, hf, hl⟩ := h4
        simp only at h0
        omega
    · rw [h3, herr _ _ he] at hB
      cases hB
      rcases rp C with ⟨k1, k2⟩ | ⟨a', t, ts', k1, k2, k3⟩ | ⟨e', a', t, he', k1, k2⟩ | ⟨t, k2, k3⟩
      · rw [h2] at k1; cases k1
      · rw [h2] at k1; cases k1
      · rw [h2] at k1; cases k1
        rw [k2]
        exact ⟨_, .inl (herr _ _ he)⟩
      · rw [k2]
        exact ⟨_, .inr (hlem _)⟩
    · rw [h3, hlem] at hB
      cases hB
      exact absurd rfl h1

end Libmorph

namespace Libmorph

/-- Without a buffer for the lemmas the way they are written does not matter. -/
theorem textCall_null (app app' : App) (c : Call) {s : LemmState} (hs : s.forms.buf = none) :
    textCall app c s = textCall app' c s ∧ ∀ r s', textCall app c s = some (r, s') → s'.forms.buf = none := by
  have hform : ∀ (app : App) txt m (s : LemmState), s.forms.buf = none → textForm app txt m s = some (.ok (), s) := by
    intro app txt m s hs
    simp [textForm, hs]
  simp only [textCall]
  split
  · exact ⟨rfl, by simp⟩
  · simp only [lemmCallWith, bind, pure]
    split
    · refine ⟨rfl, ?_⟩
      intro r s' h
      cases h; exact hs
    · rcases h1 : lemmOpen c.2.2.1 s with _ | ⟨e | m, s1⟩
      · exact ⟨rfl, by simp⟩
      · refine ⟨rfl, ?_⟩
        intro r s' h
        have := lemmOpen_forms h1
        cases h
        rw [this]; exact hs
      · have f1 : s1.forms.buf = none := by rw [lemmOpen_forms h1]; exact hs
        simp only [Option.bind_some, hform app c.1 m s1 f1, hform app' c.1 m s1 f1]
        refine ⟨trivial, ?_⟩
        intro r s' h
        rw [Option.bind_eq_some_iff] at h
        obtain ⟨⟨r3, a3⟩, h3, h⟩ := h
        have f3 : a3.forms.buf = none := by rw [lemmGrams_forms h3]; exact f1
        cases r3 with
        | error e => cases h; exact f3
        | ok u =>
          simp only at h
          split at h
          · cases h; exact f3
          · cases h; exact f3

theorem textRun_null (app app' : App) (cs : List Call) {s : LemmState} (hs : s.forms.buf = none) :
    runList (textCall app) cs s = runList (textCall app') cs s := by
  induction cs generalizing s with
  | nil => rfl
  | cons c cs ih =>
    obtain ⟨h1, h2⟩ := textCall_null app app' c hs
    simp only [runList, ← h1]
    rcases hx : textCall app c s with _ | ⟨_ | r, s'⟩
    · rfl
    · exact ih (h2 _ _ hx)
    · rfl

end Libmorph
