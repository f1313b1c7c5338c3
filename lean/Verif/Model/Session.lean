import Verif.Model.RusWild
import Verif.Model.CodePage
/-
Programs that make many calls: several threads, or one thread and the callbacks of FindMatch.

What the calls share.  The objects `GetAPI` hands out are static, their `Attach` and `Detach` do nothing (lang-rus/libdict/mlmamain.cpp:80-81,
107-113, 437-478), the tables of the dictionary are `const` arrays, and no method of the run time has a static variable it writes (lang-eng/libdict/capsheme.cpp:50-70
is only read).  So a call works on the dictionary, on the arguments and buffers of the caller, and on its own local variables; of the latter some are not
initialised, and hold whatever earlier calls left on the stack of the thread.  Simplification: a call is one step; that steps of calls in different
threads do not meet in memory is the reading of the source just given, not a theorem.
-/
namespace Libmorph

/-- What a call finds in its local arrays (and, for FindMatch, in memory behind the dictionary): `locase` behind the word (lang-rus/libdict/mlmamain.cpp:121, 147, 213,
lang-eng/libdict/mlmamain.cpp:114, 138, 204), `lidkey[0x10]` (rus 178, 246, eng 168, 236), `cpsstr` where FindMatch puts the string together and the bytes
behind the stem image (rus 272, 351, eng 261, 328). -/
structure Stack where
  word : List Byte
  key : List Byte
  behind : List Byte
  text : List Byte

/-- A call of the interface with its arguments; buffers are the caller's, with their content. -/
inductive Request where
  | checkWord (w : List Byte) (dwsets : Nat)
  | lemmatize (w : List Byte) (lemms : Option (List Lemm)) (forms : Option (List Byte)) (grams : Option (List Gram)) (dwsets : Nat)
  | findForms (out : Option (List Byte)) (w : List Byte) (idform dwsets : Nat)
  | buildForm (out : Option (List Byte)) (id idform : Nat)
  | getWdInfo (id : Nat)
  | findMatch (client : List (Nat × List StrMatch) → Int) (template : List Byte)

/-- What the caller gets: the value returned, and the buffers or the calls of the callback. -/
inductive Reply where
  | number (n : Int)
  | lemmas (n : Int) (s : LemmState)
  | forms (n : Int) (out : Option (List Byte))
  | info (n : Int) (psp : Option Nat)
  | found (n : Int) (calls : List (Nat × List StrMatch))

/-- The Russian library; `none`: undefined behaviour.  The methods: lang-rus/libdict/mlmamain.cpp:117-356. -/
def rusServe (im : RusImages) (k : Stack) : Request → Option Reply
  | .checkWord w d => (rusCheck im k.word w d).map .number
  | .lemmatize w L B G d => (rusLemmatize im k.word w L B G d).map fun r => .lemmas r.1 r.2
  | .findForms B w i d => (rusFindForms im k.word B w i d).map fun r => .forms r.1 r.2
  | .buildForm B id i => (rusBuildForm im (k.key.drop (lexkey id).length) B id i).map fun r => .forms r.1 r.2
  | .getWdInfo id => (rusWdInfo im (k.key.drop (lexkey id).length) id).map fun r => .info r.1 r.2
  | .findMatch client t => (rusFindMatch im k.behind k.text client t).map fun r => .found r.1 r.2

/-- The object for another code page; `GetWdInfo` does not look at texts.  The methods: lang-rus/libdict/mlmamain.cpp:117-356. -/
def rusServeIn (P : Page) (im : RusImages) (k : Stack) : Request → Option Reply
  | .checkWord w d => (rusCheckIn P im k.word w d).map .number
  | .lemmatize w L B G d => (rusLemmatizeIn P im k.word w L B G d).map fun r => .lemmas r.1 r.2
  | .findForms B w i d => (rusFindFormsIn P im k.word B w i d).map fun r => .forms r.1 r.2
  | .buildForm B id i => (rusBuildFormIn P im (k.key.drop (lexkey id).length) B id i).map fun r => .forms r.1 r.2
  | .getWdInfo id => (rusWdInfo im (k.key.drop (lexkey id).length) id).map fun r => .info r.1 r.2
  | .findMatch client t => (rusFindMatchIn P im k.behind k.text client t).map fun r => .found r.1 r.2

/-- The English library, lang-eng/libdict/mlmamain.cpp:109-333. -/
def engServe (im : Images) (k : Stack) : Request → Option Reply
  | .checkWord w d => (checkWord im k.word w d).map .number
  | .lemmatize w L B G d => (lemmatize im k.word w L B G d).map fun r => .lemmas r.1 r.2
  | .findForms B w i d => (findForms im k.word B w i d).map fun r => .forms r.1 r.2
  | .buildForm B id i => (buildForm im (k.key.drop (lexkey id).length) B id i).map fun r => .forms r.1 r.2
  | .getWdInfo id => (getWdInfo im (k.key.drop (lexkey id).length) id).map fun r => .info r.1 r.2
  | .findMatch client t => (findMatch im k.behind k.text client t).map fun r => .found r.1 r.2

/-- One call of a history: who makes it, what its stack holds, what is asked. -/
structure ApiCall where
  who : Nat
  stack : Stack
  asks : Request

/-- The replies of a history, call after call; undefined behaviour in one call is that of the whole program. -/
def history (serve : Stack → Request → Option Reply) (H : List ApiCall) : Option (List (Nat × Reply)) :=
  H.mapM fun c => (serve c.stack c.asks).map fun r => (c.who, r)

end Libmorph
