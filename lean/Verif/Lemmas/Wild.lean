import Verif.Spec.Wild
import Verif.Model.Wild
import Verif.Lemmas.ScanTree
import Verif.Lemmas.Stems
/-
Wildcard search: templates, the array of the match, the scan of the tree.
-/
namespace Libmorph

/-! ### Templates -/

theorem WildMatch.rest {p s t : List Byte} (h : WildMatch p (s ++ t)) : ∃ r, WildRest p s r ∧ WildMatch r t := by
  generalize hw : s ++ t = w at h
  induction h generalizing s with
  | nil =>
    obtain ⟨rfl, rfl⟩ := List.append_eq_nil_iff.1 hw
    exact ⟨[], .stop, .nil⟩
  | @none p w h ih =>
    cases s with
    | nil => exact ⟨_, .stop, by rw [show t = _ from hw]; exact WildMatch.none h⟩
    | cons x s =>
      obtain ⟨r, h1, h2⟩ := ih hw
      refine ⟨r, .none ?_ h1, h2⟩
      rintro rfl
      cases h1
  | @more p w c h ih =>
    cases s with
    | nil => exact ⟨_, .stop, by rw [show t = _ from hw]; exact WildMatch.more h⟩
    | cons x s =>
      simp only [List.cons_append, List.cons.injEq] at hw
      obtain ⟨rfl, hw⟩ := hw
      obtain ⟨r, h1, h2⟩ := ih hw
      exact ⟨r, .more h1, h2⟩
  | @any p w c h ih =>
    cases s with
    | nil => exact ⟨_, .stop, by rw [show t = _ from hw]; exact WildMatch.any h⟩
    | cons x s =>
      simp only [List.cons_append, List.cons.injEq] at hw
      obtain ⟨r, h1, h2⟩ := ih hw.2
      exact ⟨r, .any h1, h2⟩
  | @same p w c c1 c2 h ih =>
    cases s with
    | nil => exact ⟨_, .stop, by rw [show t = _ from hw]; exact WildMatch.same c1 c2 h⟩
    | cons x s =>
      simp only [List.cons_append, List.cons.injEq] at hw
      obtain ⟨r, h1, h2⟩ := ih hw.2
      rw [hw.1]
      exact ⟨r, .same c1 c2 h1, h2⟩

theorem WildRest.matches {p s r t : List Byte} (h : WildRest p s r) (ht : WildMatch r t) : WildMatch p (s ++ t) := by
  induction h with
  | stop => exact ht
  | none _ _ ih => exact .none (ih ht)
  | more _ ih => exact .more (ih ht)
  | any _ ih => exact .any (ih ht)
  | same h1 h2 _ ih => exact .same h1 h2 (ih ht)

theorem wildMatch_iff_rest {p s t : List Byte} : WildMatch p (s ++ t) ↔ ∃ r, WildRest p s r ∧ WildMatch r t :=
  ⟨WildMatch.rest, fun ⟨_, h1, h2⟩ => h1.matches h2⟩

theorem wildMatch_nil {w : List Byte} : WildMatch [] w ↔ w = [] := by
  constructor
  · intro h; cases h; rfl
  · rintro rfl; exact .nil

theorem wildMatch_star {p w : List Byte} : WildMatch (42 :: p) w ↔ WildMatch p w ∨ ∃ c v, w = c :: v ∧ WildMatch (42 :: p) v := by
  constructor
  · intro h
    cases h with
    | none h => exact Or.inl h
    | more h => exact Or.inr ⟨_, _, rfl, h⟩
    | same h => exact absurd rfl h
  · rintro (h | ⟨c, v, rfl, h⟩)
    · exact .none h
    · exact .more h

theorem wildMatch_any {p w : List Byte} : WildMatch (63 :: p) w ↔ ∃ c v, w = c :: v ∧ WildMatch p v := by
  constructor
  · intro h
    cases h with
    | any h => exact ⟨_, _, rfl, h⟩
    | same _ h => exact absurd rfl h
  · rintro ⟨c, v, rfl, h⟩; exact .any h

theorem wildMatch_same {c : Byte} {p w : List Byte} (h1 : c ≠ 42) (h2 : c ≠ 63) :
    WildMatch (c :: p) w ↔ ∃ v, w = c :: v ∧ WildMatch p v := by
  constructor
  · intro h
    cases h with
    | none => exact absurd rfl h1
    | more => exact absurd rfl h1
    | any => exact absurd rfl h2
    | same _ _ h => exact ⟨_, rfl, h⟩
  · rintro ⟨v, rfl, h⟩; exact .same h1 h2 h

theorem wildWays_pos (p w : List Byte) : 0 < wildWays p w ↔ WildMatch p w := by
  induction p, w using wildWays.induct with
  | case1 => simp [wildWays, WildMatch.nil]
  | case2 x w => simp [wildWays, wildMatch_nil]
  | case3 p ih => rw [wildWays, if_pos rfl, ih, wildMatch_star]; simp
  | case4 c p h =>
    rw [wildWays, if_neg h]
    simp only [Nat.lt_irrefl, false_iff]
    intro hm; cases hm; exact h rfl
  | case5 p x w ih1 ih2 =>
    rw [wildWays, if_pos rfl, wildMatch_star, ← ih1]
    constructor
    · intro h
      by_cases h0 : 0 < wildWays p (x :: w)
      · exact Or.inl h0
      · exact Or.inr ⟨x, w, rfl, ih2.1 (by omega)⟩
    · rintro (h | ⟨c, v, hv, h⟩)
      · omega
      · simp only [List.cons.injEq] at hv
        obtain ⟨rfl, rfl⟩ := hv
        have := ih2.2 h; omega
  | case6 c p x w h1 h2 ih =>
    rw [wildWays, if_neg h1, if_pos h2, ih]
    by_cases h3 : c = 63
    · subst h3
      rw [wildMatch_any]; simp
    · have h4 : c = x := h2.resolve_left h3
      subst h4
      rw [wildMatch_same h1 h3]; simp
  | case7 c p x w h1 h2 =>
    rw [wildWays, if_neg h1, if_neg h2]
    simp only [not_or] at h2
    simp only [Nat.lt_irrefl, false_iff]
    rw [wildMatch_same h1 h2.1]
    rintro ⟨v, hv, -⟩
    simp only [List.cons.injEq] at hv
    exact h2.2 hv.1.symm

theorem wildWays_append (p s t : List Byte) : wildWays p (s ++ t) = ((wildRests p s).map fun r => wildWays r t).sum := by
  induction p, s using wildRests.induct with
  | case1 p => simp [wildRests]
  | case2 x w => simp [wildRests, wildWays]
  | case3 p x w ih1 ih2 =>
    rw [List.cons_append, wildWays, wildRests, if_pos rfl, if_pos rfl]
    rw [← List.cons_append, ih1, ih2]
    simp
  | case4 c p x w h1 h2 ih => rw [List.cons_append, wildWays, wildRests, if_neg h1, if_pos h2, if_neg h1, if_pos h2, ih]
  | case5 c p x w h1 h2 => rw [List.cons_append, wildWays, wildRests, if_neg h1, if_neg h2, if_neg h1, if_neg h2]; simp

/-! ### Steps of the search -/

variable {σ ε α : Type}

/-- Started with `w` at the beginning of `smatch`, the step registers the events `E` (it is undefined when one of
them cannot be registered), never stops, and leaves `w` where it is. -/
def Emits (cap : Nat) (reg : ε → σ → Option σ) (w : List Byte) (f : WildRun σ) (E : List ε) : Prop :=
  ∀ buf s, buf.length = cap → w <+: buf →
    match E.foldlM (fun s e => reg e s) s with
    | none => f (buf, s) = none
    | some s' => ∃ buf', f (buf, s) = some (0, (buf', s')) ∧ buf'.length = cap ∧ w <+: buf'

variable {cap : Nat} {reg : ε → σ → Option σ} {w : List Byte} {f g : WildRun σ} {E F : List ε}

theorem Emits.done : Emits cap reg w (fun st => some (0, st)) [] := by
  intro buf s hb hw
  exact ⟨buf, rfl, hb, hw⟩

theorem Emits.seq (hf : Emits cap reg w f E) (hg : Emits cap reg w g F) : Emits cap reg w (f.seq g) (E ++ F) := by
  intro buf s hb hw
  rw [List.foldlM_append]
  have h1 := hf buf s hb hw
  cases hE : E.foldlM (fun s e => reg e s) s with
  | none =>
    rw [hE] at h1
    simp [WildRun.seq, h1, bind]
  | some s' =>
    rw [hE] at h1
    obtain ⟨buf', h2, h3, h4⟩ := h1
    have h5 := hg buf' s' h3 h4
    simp only [bind, Option.bind]
    cases hF : F.foldlM (fun s e => reg e s) s' with
    | none => rw [hF] at h5; simp [WildRun.seq, h2, h5, bind]
    | some s'' =>
      rw [hF] at h5
      obtain ⟨buf'', h6, h7, h8⟩ := h5
      exact ⟨buf'', by simp [WildRun.seq, h2, h6, bind], h7, h8⟩

theorem Emits.congr {f' : WildRun σ} (hf : Emits cap reg w f E) (h : ∀ buf s, buf.length = cap → w <+: buf → f' (buf, s) = f (buf, s)) :
    Emits cap reg w f' E := by
  intro buf s hb hw
  rw [h buf s hb hw]
  exact hf buf s hb hw

/-- The step may be started after a character was stored behind `w`. -/
theorem Emits.after_poke (c : Byte) (hw : w.length < cap) (hf : Emits cap reg (w ++ [c]) f E) :
    Emits cap reg w (fun st => (poke1 w.length c st).bind f) E := by
  intro buf s hb hpre
  have hset : (buf.set w.length c).length = cap := by simpa using hb
  have hpre' : (w ++ [c]) <+: buf.set w.length c := by
    obtain ⟨t, rfl⟩ := hpre
    cases t with
    | nil => simp at hb; omega
    | cons x t =>
      refine ⟨t, ?_⟩
      rw [List.set_append_right _ _ (Nat.le_refl _)]
      simp
  have h1 := hf (buf.set w.length c) s hset hpre'
  simp only [poke1, hb, hw, if_true, Option.bind]
  cases hE : E.foldlM (fun s e => reg e s) s with
  | none => rw [hE] at h1; exact h1
  | some s' =>
    rw [hE] at h1
    obtain ⟨buf', h2, h3, h4⟩ := h1
    exact ⟨buf', h2, h3, (List.prefix_append w [c]).trans h4⟩

/-- Storing a character where it is already. -/
theorem Emits.same_poke (c : Byte) (r : List Byte) (hf : Emits cap reg (w ++ c :: r) f E) :
    Emits cap reg (w ++ c :: r) (fun st => (poke1 w.length c st).bind f) E := by
  refine hf.congr ?_
  intro buf s hb hpre
  obtain ⟨t, rfl⟩ := hpre
  have : w.length < (w ++ c :: r ++ t).length := by simp only [List.length_append, List.length_cons]; omega
  simp only [poke1, this, if_true, Option.bind]
  rw [List.append_assoc, List.set_append_right _ _ (Nat.le_refl _)]
  simp

/-! ### Suffix and string -/

/-- `out` registers the event `ev w g` for the text `w`. -/
def OutEmits (cap : Nat) (reg : ε → σ → Option σ) (out : WildOut σ) (ev : List Byte → Gram → ε) : Prop :=
  ∀ w g, w.length ≤ cap → Emits cap reg w (out w.length g) [ev w g]

theorem scanSuffixAux_emits {out : WildOut σ} {ev : List Byte → Gram → ε} (hout : OutEmits cap reg out ev) (g : Gram) :
    ∀ (fuel : Nat) (inflex suffix w : List Byte), inflex.length + suffix.length < fuel → w.length + suffix.length ≤ cap →
      (∀ c ∈ suffix, c ≠ 42 ∧ c ≠ 63) →
      Emits cap reg w (scanSuffixAux out fuel inflex suffix w.length g)
        (List.replicate (wildWays inflex suffix) (ev (w ++ suffix) g)) := by
  intro fuel
  induction fuel with
  | zero => intro _ _ _ h; omega
  | succ fuel ih =>
    intro inflex suffix w hf hl hs
    cases inflex with
    | nil =>
      cases suffix with
      | nil => simpa [scanSuffixAux, wildWays] using hout w g (by simpa using hl)
      | cons x xs => simpa [scanSuffixAux, wildWays] using Emits.done
    | cons i is =>
      cases suffix with
      | nil =>
        by_cases hi : i = 42
        · subst hi
          have := (ih is [] w (by simp at hf ⊢; omega) hl hs).seq (Emits.done (reg := reg) (cap := cap) (w := w))
          simpa [scanSuffixAux, wildWays] using this
        · simpa [scanSuffixAux, wildWays, hi] using Emits.done
      | cons x xs =>
        simp only [List.length_cons] at hf hl
        have hx := hs x (by simp)
        have hxs : ∀ c ∈ xs, c ≠ 42 ∧ c ≠ 63 := fun c hc => hs c (by simp [hc])
        have step : ∀ is', is'.length + xs.length < fuel →
            Emits cap reg w (fun st => (poke1 w.length x st).bind (scanSuffixAux out fuel is' xs (w.length + 1) g))
              (List.replicate (wildWays is' xs) (ev (w ++ x :: xs) g)) := by
          intro is' hlen
          have h1 := ih is' xs (w ++ [x]) hlen (by simp; omega) hxs
          simp only [List.length_append, List.length_singleton, List.append_assoc, List.singleton_append] at h1
          exact Emits.after_poke x (by omega) h1
        by_cases h1 : i = x
        · have h2 := step is (by omega)
          subst h1
          rw [wildWays, if_neg hx.1, if_pos (Or.inr rfl)]
          simpa [scanSuffixAux, bind] using h2
        · by_cases h2 : i = 42
          · subst h2
            have h3 := ih is (x :: xs) w (by simp only [List.length_cons]; omega) (by simpa using hl) hs
            have h4 := step (42 :: is) (by simp only [List.length_cons]; omega)
            rw [wildWays, if_pos rfl, List.replicate_add]
            have h5 := h3.seq h4
            refine h5.congr ?_
            intro buf s _ _
            simp only [scanSuffixAux]
            rw [if_neg h1, if_pos trivial]
            rfl
          · by_cases h3 : i = 63
            · have h4 := step is (by omega)
              rw [wildWays, if_neg h2, if_pos (Or.inl h3)]
              refine h4.congr ?_
              intro buf s _ _
              simp only [scanSuffixAux]
              rw [if_neg h1, if_neg h2, if_pos h3]
              rfl
            · rw [wildWays, if_neg h2, if_neg (by simp [h1, h3])]
              refine Emits.done.congr ?_
              intro buf s _ _
              simp only [scanSuffixAux]
              rw [if_neg h1, if_neg h2, if_neg h3]

theorem scanSuffix_emits {out : WildOut σ} {ev : List Byte → Gram → ε} (hout : OutEmits cap reg out ev) (g : Gram)
    (inflex suffix w : List Byte) (hl : w.length + suffix.length ≤ cap) (hs : ∀ c ∈ suffix, c ≠ 42 ∧ c ≠ 63) :
    Emits cap reg w (scanSuffix out inflex suffix w.length g) (List.replicate (wildWays inflex suffix) (ev (w ++ suffix) g)) :=
  scanSuffixAux_emits hout g _ inflex suffix w (by omega) hl hs

theorem scanStringAux_emits {next : List Byte → Nat → WildRun σ} {E : List Byte → List ε} {v : List Byte} :
    ∀ (fuel : Nat) (inflex str w : List Byte) (j : Nat), inflex.length + str.length < fuel → w ++ str = v → v.length ≤ cap →
      (∀ c ∈ str, c ≠ 42 ∧ c ≠ 63) → (∀ r, Emits cap reg v (next r v.length) (E r)) →
      Emits cap reg (w ++ str.take j) (scanStringAux next fuel inflex str w.length)
        ((wildRests inflex str).flatMap E) := by
  intro fuel
  induction fuel with
  | zero => intro _ _ _ _ h; omega
  | succ fuel ih =>
    intro inflex str w j hf hv hl hs hnext
    cases str with
    | nil =>
      simp only [List.append_nil] at hv
      subst hv
      simpa [scanStringAux, wildRests] using hnext inflex
    | cons x xs =>
      cases inflex with
      | nil => simpa [scanStringAux, wildRests] using Emits.done
      | cons i is =>
        simp only [List.length_cons] at hf
        have hx := hs x (by simp)
        have hxs : ∀ c ∈ xs, c ≠ 42 ∧ c ≠ 63 := fun c hc => hs c (by simp [hc])
        have hwl : w.length < cap := by rw [← hv] at hl; simp only [List.length_append, List.length_cons] at hl; omega
        -- the body, once the character is in its place
        have body : ∀ j, 1 ≤ j → Emits cap reg (w ++ (x :: xs).take j)
            (fun st => if x = i then scanStringAux next fuel is xs (w.length + 1) st
              else if i = 63 then scanStringAux next fuel is xs (w.length + 1) st
              else if i = 42 then (scanStringAux next fuel is (x :: xs) w.length).seq (scanStringAux next fuel (i :: is) xs (w.length + 1)) st
              else some (0, st)) ((wildRests (i :: is) (x :: xs)).flatMap E) := by
          intro j hj
          obtain ⟨j, rfl⟩ : ∃ k, j = k + 1 := ⟨j - 1, by omega⟩
          have step : ∀ is', is'.length + xs.length < fuel →
              Emits cap reg (w ++ (x :: xs).take (j + 1)) (scanStringAux next fuel is' xs (w.length + 1)) ((wildRests is' xs).flatMap E) := by
            intro is' hlen
            have := ih is' xs (w ++ [x]) j hlen (by simpa using hv) hl hxs hnext
            simpa using this
          by_cases h1 : x = i
          · have := step is (by omega)
            rw [wildRests, if_neg (by rw [← h1]; exact hx.1), if_pos (Or.inr h1.symm)]
            simpa [h1] using this
          · by_cases h3 : i = 63
            · have := step is (by omega)
              rw [wildRests, if_neg (by rw [h3]; decide), if_pos (Or.inl h3)]
              simpa [h1, h3] using this
            · by_cases h2 : i = 42
              · rw [wildRests, if_pos h2]
                have s1 := ih is (x :: xs) w (j + 1) (by simp only [List.length_cons]; omega) hv hl hs hnext
                have s2 := step (i :: is) (by simp only [List.length_cons]; omega)
                have := s1.seq s2
                rw [List.flatMap_append]
                simpa [h2, hx.1] using this
              · rw [wildRests, if_neg h2, if_neg (by
                  rintro (h | h)
                  · exact h3 h
                  · exact h1 h.symm)]
                simpa [h1, h2, h3] using Emits.done
        have unfold : ∀ st, scanStringAux next (fuel + 1) (i :: is) (x :: xs) w.length st
            = (poke1 w.length x st).bind (fun st => if x = i then scanStringAux next fuel is xs (w.length + 1) st
              else if i = 63 then scanStringAux next fuel is xs (w.length + 1) st
              else if i = 42 then (scanStringAux next fuel is (x :: xs) w.length).seq (scanStringAux next fuel (i :: is) xs (w.length + 1)) st
              else some (0, st)) := fun st => rfl
        cases j with
        | zero =>
          have := Emits.after_poke x hwl (by simpa using body 1 (by omega))
          simp only [List.take_zero, List.append_nil]
          exact this.congr (fun buf s _ _ => unfold _)
        | succ j =>
          have h1 := body (j + 1) (by omega)
          simp only [List.take_succ_cons] at h1 ⊢
          exact (Emits.same_poke x _ h1).congr (fun buf s _ _ => unfold _)

theorem scanString_emits {next : List Byte → Nat → WildRun σ} {E : List Byte → List ε} (inflex str w : List Byte)
    (hl : (w ++ str).length ≤ cap) (hs : ∀ c ∈ str, c ≠ 42 ∧ c ≠ 63)
    (hnext : ∀ r, Emits cap reg (w ++ str) (next r (w ++ str).length) (E r)) :
    Emits cap reg w (scanString next inflex str w.length) ((wildRests inflex str).flatMap E) := by
  have := scanStringAux_emits (inflex.length + str.length + 1) inflex str w 0 (by omega) rfl hl hs hnext
  simpa [scanString] using this

end Libmorph
