import Verif.Model.Session
import Verif.Lemmas.Past
import Verif.Props.C83Wild
import Verif.Props.C83WildEng
import Verif.Props.C38
import Verif.Props.C30Rus
/-
C96: whatever was called before, by whomever, a call is answered the same.
-/
namespace Libmorph
open Spec

/-- The arrays have the sizes of the code; nothing is said of their content. -/
structure Stack.Ok (k : Stack) : Prop where
  key : k.key.length = 16
  behind : k.behind ≠ []
  text : k.text.length = 48

/-- The words and numbers of the calls: words of at most eight parts (C15). -/
def Request.Ok (T : CharTab) : Request → Prop
  | .checkWord w _ => (wordParts T w).length ≤ 8
  | .lemmatize w _ _ _ _ => (wordParts T w).length ≤ 8
  | .findForms _ w _ _ => (wordParts T w).length ≤ 8
  | _ => True

theorem drop_key (k : Stack) (hk : k.Ok) (id : Nat) : (lexkey id).length + (k.key.drop (lexkey id).length).length = 16 := by
  have := lexkey_length_le id
  rw [List.length_drop, hk.key]
  omega

/-- **C96** Russian: the stack does not show in the answer. -/
theorem C96_russian_call {A : List Byte} {D : RusDict} {st : RusState} (h : RusOk A D st) (hi : RusIdsOk D st) (hw : RusWildOk D) (r : Request)
    (hr : r.Ok rusTab) (k k' : Stack) (hk : k.Ok) (hk' : k'.Ok) : rusServe (st.images D.mtab) k r = rusServe (st.images D.mtab) k' r := by
  cases r with
  | checkWord w d => simp only [rusServe, past_check h w k.word k'.word d hr]
  | lemmatize w L B G d => simp only [rusServe, past_lemmatize h w k.word k'.word d hr]
  | findForms B w i d => simp only [rusServe, past_findForms h w k.word k'.word i d hr]
  | buildForm B id i => simp only [rusServe, past_buildForm h hi _ _ id i (drop_key k hk id) (drop_key k' hk' id)]
  | getWdInfo id => simp only [rusServe, past_wdInfo h hi _ _ id (drop_key k hk id) (drop_key k' hk' id)]
  | findMatch client t =>
    simp only [rusServe, C83_find_match ⟨rfl, rfl, Moved.refl _⟩ h h hw k.behind k'.behind k.text k'.text hk.behind hk'.behind hk.text hk'.text client t]

/-- **C96** English: the same. -/
theorem C96_english_call {A : List Byte} {as : List Article} (h : EngOk A as) (hi : IdsOk as) (hw : WildOk as) (r : Request)
    (hr : r.Ok engTab) (k k' : Stack) (hk : k.Ok) (hk' : k'.Ok) : engServe (engBuild as).images k r = engServe (engBuild as).images k' r := by
  cases r with
  | checkWord w d => simp only [engServe, eng_past_check h w k.word k'.word d hr]
  | lemmatize w L B G d => simp only [engServe, eng_past_lemmatize h w k.word k'.word d hr]
  | findForms B w i d => simp only [engServe, eng_past_findForms h w k.word k'.word i d hr]
  | buildForm B id i => simp only [engServe, eng_past_buildForm h hi _ _ id i (drop_key k hk id) (drop_key k' hk' id)]
  | getWdInfo id => simp only [engServe, eng_past_wdInfo h hi _ _ id (drop_key k hk id) (drop_key k' hk' id)]
  | findMatch client t =>
    simp only [engServe, C83_english_find_match (Moved.refl _) h h hw k.behind k'.behind k.text k'.text hk.behind hk'.behind hk.text hk'.text client t]

theorem history_share {serve : Stack → Request → Option Reply} {ok : Request → Prop}
    (hs : ∀ r, ok r → ∀ k k' : Stack, k.Ok → k'.Ok → serve k r = serve k' r) (who : Nat) (H S : List ApiCall) (hH : ∀ c ∈ H, c.stack.Ok ∧ ok c.asks)
    (hS : ∀ c ∈ S, c.stack.Ok) (e : S.map ApiCall.asks = (H.filter fun c => c.who = who).map ApiCall.asks) (R : List (Nat × Reply)) (hR : history serve H = some R) :
    (history serve S).map (fun Q => Q.map Prod.snd) = some ((R.filter fun q => q.1 = who).map Prod.snd) := by
  induction H generalizing S R with
  | nil =>
    simp only [history, List.mapM_nil, pure, Option.some.injEq] at hR
    subst hR
    have : S = [] := by simpa using e
    subst this
    rfl
  | cons c H ih =>
    simp only [history, List.mapM_cons, bind, Option.bind] at hR
    cases hc : serve c.stack c.asks with
    | none => simp [hc] at hR
    | some r =>
      simp only [hc, Option.map_some] at hR
      cases hrest : history serve H with
      | none => simp only [history] at hrest; simp [hrest] at hR
      | some R' =>
        have hrest' := hrest
        simp only [history] at hrest'
        simp only [hrest', pure, Option.some.injEq] at hR
        subst hR
        by_cases hw : c.who = who
        · rw [List.filter_cons_of_pos (by simpa using hw), List.map_cons] at e
          cases S with
          | nil => simp at e
          | cons d S =>
            rw [List.map_cons, List.cons.injEq] at e
            have := ih S (fun x hx => hH x (by simp [hx])) (fun x hx => hS x (by simp [hx])) e.2 R' hrest
            have hd : serve d.stack d.asks = some r := by
              rw [e.1, ← hc]
              exact hs _ (hH c (by simp)).2 _ _ (hS d (by simp)) (hH c (by simp)).1
            simp only [history, List.mapM_cons, bind, Option.bind, hd, Option.map_some]
            simp only [history] at this
            cases hq : List.mapM (fun c => (serve c.stack c.asks).map fun r => (c.who, r)) S with
            | none => simp [hq] at this
            | some Q =>
              rw [hq] at this
              simp only [Option.map_some, Option.some.injEq] at this
              simp [pure, hw, this]
        · rw [List.filter_cons_of_neg (by simpa using hw)] at e
          have := ih S (fun x hx => hH x (by simp [hx])) hS e R' hrest
          rw [this, List.filter_cons_of_neg (by simpa using hw)]

/-- **C96** Russian: however the calls of several callers are interleaved, each caller gets the replies it would get alone, on any other stack. -/
theorem C96_russian {A : List Byte} {D : RusDict} {st : RusState} (h : RusOk A D st) (hi : RusIdsOk D st) (hw : RusWildOk D)
    (H : List ApiCall) (hH : ∀ c ∈ H, c.stack.Ok ∧ c.asks.Ok rusTab) (R : List (Nat × Reply)) (hR : history (rusServe (st.images D.mtab)) H = some R)
    (who : Nat) (alone : List ApiCall) (ha : ∀ c ∈ alone, c.stack.Ok) (e : alone.map ApiCall.asks = (H.filter fun c => c.who = who).map ApiCall.asks) :
    (history (rusServe (st.images D.mtab)) alone).map (fun Q => Q.map Prod.snd) = some ((R.filter fun q => q.1 = who).map Prod.snd) :=
  history_share (fun r hr k k' hk hk' => C96_russian_call h hi hw r hr k k' hk hk') who H alone hH ha e R hR

/-- **C96** English: the same. -/
theorem C96_english {A : List Byte} {as : List Article} (h : EngOk A as) (hi : IdsOk as) (hw : WildOk as)
    (H : List ApiCall) (hH : ∀ c ∈ H, c.stack.Ok ∧ c.asks.Ok engTab) (R : List (Nat × Reply)) (hR : history (engServe (engBuild as).images) H = some R)
    (who : Nat) (alone : List ApiCall) (ha : ∀ c ∈ alone, c.stack.Ok) (e : alone.map ApiCall.asks = (H.filter fun c => c.who = who).map ApiCall.asks) :
    (history (engServe (engBuild as).images) alone).map (fun Q => Q.map Prod.snd) = some ((R.filter fun q => q.1 = who).map Prod.snd) :=
  history_share (fun r hr k k' hk hk' => C96_english_call h hi hw r hr k k' hk hk') who H alone hH ha e R hR

/-- **C96** Not so the probabilistic analyser: the same call, of the same word, is answered when the stack holds zeros and reads behind its array when it
holds letters. -/
theorem C96_fuzzy_counterexample :
    let call := fun junk => fuzzyLemmatize rusFuzzy (fuzzyImages fuzzySample fuzzySampleTree) sampleRank sampleSort [0]
      junk stolov (some (List.replicate 2 ⟨none, 0, 0, none, 0, 0⟩)) (some (List.replicate 13 0)) none 0
    (call (List.replicate 64 0)).map (·.1) = some 2 ∧ call (List.replicate 64 255) = none := by decide +kernel

/-- Three calls of two callers. -/
example : (history (rusServe (rusSampleState.images rusSample.mtab))
    [⟨0, ⟨[1], List.replicate 16 2, [3], List.replicate 48 4⟩, .checkWord [241, 237, 224] 0⟩, ⟨1, ⟨[], List.replicate 16 0, [0], List.replicate 48 0⟩, .getWdInfo 1⟩,
      ⟨0, ⟨[255], List.replicate 16 9, [7], List.replicate 48 5⟩, .checkWord [241, 238, 237] 0⟩]).map List.length = some 3 := by
  decide +kernel
example : RusIdsOk rusSample rusSampleState ∧ RusWildOk rusSample ∧ IdsOk engSample ∧ WildOk engSample := ⟨rusSample_ids, rusSample_wild, engSample_ids, engSample_wild⟩

end Libmorph
