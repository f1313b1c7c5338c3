import Verif.Lemmas.CodePage
import Verif.Lemmas.WildVisits
/-
Wildcard search in another code page.
-/
namespace Libmorph

variable {P : Page} {enc : Byte → List Byte} {known : Byte → Prop}

/-- The registration in code page 1251. -/
def regNative (a : Found) (s : MatchSt) : Option MatchSt := (s.enter a.1).push 512 (256 * 96) a.2.1 a.2.2.idForm

/-- The registration in another code page. -/
def regPage (P : Page) (a : Found) (s : MatchSt) : Option MatchSt :=
  (P.from1251 96 a.2.1).bind fun x => (s.enter a.1).push 512 (256 * 96) (x.2.take x.1) a.2.2.idForm

theorem rusReg_found : rusReg = foundReg regNative := by
  funext id text g s
  simp only [rusReg, foundReg, regNative, bind]
  cases (s.enter id).push 512 (256 * 96) text g.idForm <;> rfl

theorem rusRegIn_eq : rusRegIn P = foundReg (regPage P) := by
  funext id text g s
  simp only [rusRegIn, foundReg, regPage, bind]
  rcases P.from1251 96 text with _ | ⟨n, o⟩
  · rfl
  · simp only [Option.bind_some]
    cases (s.enter id).push 512 (256 * 96) (o.take n) g.idForm <;> rfl

/-- The state of the collector, converted. -/
def convSt (enc : Byte → List Byte) (s : MatchSt) : MatchSt :=
  ⟨convCalls enc s.calls, s.lastId, convMatches enc s.amatch, s.used.map fun _ => matchBytes (convMatches enc s.amatch)⟩

/-- The texts of a lexeme fit. -/
def FitMatches (enc : Byte → List Byte) (ms : List StrMatch) : Prop :=
  (∀ m ∈ ms, (inPage enc m.text).length ≤ 95) ∧ matchBytes (convMatches enc ms) ≤ 256 * 96

def MatchSt.final (s : MatchSt) : List (Nat × List StrMatch) := s.calls ++ if s.lastId ≠ 0 then [(s.lastId, s.amatch)] else []

theorem matchBytes_append (a b : List StrMatch) : matchBytes (a ++ b) = matchBytes a + matchBytes b := by simp [matchBytes]

theorem convMatches_append (a b : List StrMatch) : convMatches enc (a ++ b) = convMatches enc a ++ convMatches enc b := by simp [convMatches]

theorem FitMatches.left {a b : List StrMatch} (h : FitMatches enc (a ++ b)) : FitMatches enc a := by
  refine ⟨fun m hm => h.1 m (by simp [hm]), ?_⟩
  have := h.2
  rw [convMatches_append, matchBytes_append] at this
  omega

theorem enter_conv (id : Nat) (s : MatchSt) : (convSt enc s).enter id = convSt enc (s.enter id) := by
  obtain ⟨c, l, am, u⟩ := s
  by_cases h : id = l
  · subst h
    simp [MatchSt.enter, convSt]
  · by_cases h' : l = 0
    · subst h'
      simp [MatchSt.enter, convSt, h, convMatches, matchBytes]
    · simp [MatchSt.enter, convSt, h, h', convCalls, convMatches, matchBytes]

theorem regNative_step (hP : P.Ok enc known) {a : Found} {s s' : MatchSt} (ha : a.1 ≠ 0) (h0 : s.lastId = 0 → s.amatch = [])
    (h : regNative a s = some s') (hf : ∀ c ∈ s'.final, FitMatches enc c.2) :
    regPage P a (convSt enc s) = some (convSt enc s') ∧ (∀ c ∈ s.final, FitMatches enc c.2) ∧ s'.lastId ≠ 0 := by
  obtain ⟨id, text, g⟩ := a
  simp only [regNative, MatchSt.push, bind, Option.bind_eq_some_iff] at h
  obtain ⟨u, hu, h⟩ := h
  split at h
  · rename_i hb
    cases h
    have hid : (s.enter id).lastId = id := by
      simp only [MatchSt.enter]
      split
      · rfl
      · rename_i h
        simpa using (not_not.1 h).symm
    have hm : FitMatches enc ((s.enter id).amatch ++ [⟨text, g.idForm⟩]) := by
      apply hf (id, _)
      simp only [MatchSt.final]
      rw [hid, if_pos ha]
      simp
    refine ⟨?_, ?_, by simpa [hid] using ha⟩
    · have ht : (inPage enc text).length ≤ 95 := hm.1 ⟨text, g.idForm⟩ (by simp)
      have hroom := hm.2
      rw [convMatches_append, matchBytes_append] at hroom
      simp only [regPage, hP.from_room 96 text (by omega), Option.bind_some, List.take_left]
      have hent : (convSt enc s).enter id = convSt enc (s.enter id) := enter_conv id s
      rw [hent]
      simp only [MatchSt.push, convSt, hu, Option.map_some, bind, Option.bind_some]
      rw [if_pos]
      · simp only [convMatches_append, matchBytes_append, pure, Option.map_some]
        simp [convMatches, matchBytes, Nat.add_assoc]
      · refine ⟨by simpa [convMatches] using hb.1, ?_⟩
        simp only [convMatches, matchBytes, List.map_cons, List.map_nil, List.sum_cons, List.sum_nil] at hroom ⊢
        omega
    · intro c hc
      simp only [MatchSt.final, MatchSt.enter] at hf hc
      by_cases he : id ≠ s.lastId
      · simp only [if_pos he] at hf
        rw [if_pos ha] at hf
        apply hf c
        by_cases hz : s.lastId ≠ 0
        · rw [if_pos hz] at hc
          simp only [if_pos hz]
          simp only [List.mem_append] at hc ⊢
          exact .inl hc
        · rw [if_neg hz] at hc
          simp only [if_neg hz]
          simp at hc
          simp [hc]
      · simp only [if_neg he] at hf
        have hz : s.lastId ≠ 0 := by
          have := not_not.1 he
          omega
        rw [if_pos hz] at hf hc
        rw [List.mem_append] at hc
        rcases hc with hc | hc
        · exact hf c (by simp [hc])
        · simp only [List.mem_singleton] at hc
          subst hc
          exact (hf (s.lastId, s.amatch ++ [⟨text, g.idForm⟩]) (by simp)).left
  · cases h

theorem regAll_step (hP : P.Ok enc known) (V : List Found) (hV : ∀ a ∈ V, a.1 ≠ 0) {s s' : MatchSt} (h0 : s.lastId = 0 → s.amatch = [])
    (h : regAll regNative V s = some s') (hf : ∀ c ∈ s'.final, FitMatches enc c.2) :
    regAll (regPage P) V (convSt enc s) = some (convSt enc s') ∧ (∀ c ∈ s.final, FitMatches enc c.2) := by
  induction V generalizing s with
  | nil => cases h; exact ⟨rfl, hf⟩
  | cons a V ih =>
    simp only [regAll, Option.bind_eq_some_iff] at h
    obtain ⟨s1, h1, h2⟩ := h
    have hlast : s1.lastId ≠ 0 := by
      simp only [regNative, MatchSt.push, bind, Option.bind_eq_some_iff] at h1
      obtain ⟨u, hu, h1⟩ := h1
      split at h1
      · cases h1
        simp only [MatchSt.enter]
        split
        · exact hV a (by simp)
        · rename_i h
          have := not_not.1 h
          have := hV a (by simp)
          omega
      · cases h1
    obtain ⟨i1, i2⟩ := ih (fun a ha => hV a (by simp [ha])) (s := s1) (fun h => absurd h hlast) h2
    obtain ⟨j1, j2, -⟩ := regNative_step hP (hV a (by simp)) h0 h1 i2
    refine ⟨?_, j2⟩
    simp only [regAll, j1, Option.bind_some]
    exact i1

theorem regAll_last (V : List Found) (hV : ∀ a ∈ V, a.1 ≠ 0) {s s' : MatchSt} (h : regAll regNative V s = some s') : s' = s ∨ s'.lastId ≠ 0 := by
  induction V generalizing s with
  | nil => cases h; exact .inl rfl
  | cons a V ih =>
    simp only [regAll, Option.bind_eq_some_iff] at h
    obtain ⟨s1, h1, h2⟩ := h
    have hlast : s1.lastId ≠ 0 := by
      simp only [regNative, MatchSt.push, bind, Option.bind_eq_some_iff] at h1
      obtain ⟨u, hu, h1⟩ := h1
      split at h1
      · cases h1
        simp only [MatchSt.enter]
        split
        · exact hV a (by simp)
        · rename_i h
          have := not_not.1 h
          have := hV a (by simp)
          omega
      · cases h1
    rcases ih (fun a ha => hV a (by simp [ha])) h2 with h | h
    · subst h; exact .inr hlast
    · exact .inr h

theorem regAll_list (V W : List Found) : regAll (fun a l => some (l ++ [a])) V W = some (W ++ V) := by
  induction V generalizing W with
  | nil => simp [regAll]
  | cons a V ih => simp [regAll, ih]

theorem rusFound_eq (im : RusImages) (tail smatch str : List Byte) :
    ∃ V e, (∀ σ (f : Found → σ → Option σ) s, wildScan (rusWildTarget im (foundReg f)) (im.stemtree ++ tail) str (smatch, s) =
      (regAll f V s).bind fun s' => (e : Option (List Byte)).map fun m' => (0, (m', s'))) ∧ rusFound im tail smatch str = e.map fun _ => V := by
  obtain ⟨V, e, h⟩ := rusWild_wlisted im (im.stemtree ++ tail) str smatch
  simp only at h
  refine ⟨V, e, h, ?_⟩
  have hreg : (fun id text g V => some ((0 : Int), V ++ [(id, text, g)]) : WildReg (List Found)) = foundReg fun a l => some (l ++ [a]) := rfl
  simp only [rusFound]
  rw [show (fun id text g V => some ((0 : Int), V ++ [(id, text, g)]) : WildReg (List (Nat × List Byte × Gram))) = foundReg fun a l => some (l ++ [a]) from hreg, h]
  rw [regAll_list]
  cases e <;> rfl

end Libmorph
