# A Lean 4 model of libmorph

## Layout
* `lean/Verif/Model/*`   the model, one Lean module per group of C++ files; every definition cites file:lines.
* `lean/Verif/Spec/*`    small independent specifications (plain lists, maps, glob matching, ...).
* `lean/Verif/Lemmas/*`  helper lemmas.
* `lean/Verif/Props/*`   the property theorems (one or several per property), each with a concrete
  `example` showing that its hypotheses are met by a non-trivial case.

## Modelling conventions
* A byte is a `Nat`; where the C++ type forces the range (`unsigned char` tables) theorems carry `< 256`.
* A pointer into a constant image is the list of the bytes from the pointer to the end of the image.
  Reading from `[]` is undefined behaviour and is the distinct outcome `none` of `Option`.
* An output buffer is the list of bytes written so far and a capacity; a write beyond the capacity is `none` (undefined behaviour),
  as opposed to a refused write, which is a value.
* Callbacks are functions `... → σ → Option (Option ρ × σ)`: `σ` is the mutable state of the C++ functor, `some r` is a non-zero
  result (stop), `none` inside is zero (go on).
* `unsigned`/`size_t` wrap where the code relies on it (`fragment::next` on an empty fragment) and are unbounded elsewhere.

## Plan per property
| id | modelled | proof |
|----|----------|-------|
| C01 | `getserial`, `getword16`, varint/word writer | round trip by induction on the number |
| C02 | `lexkeylen`, `lexkeybuf` | arithmetic; negation witness for ids ≥ 2^24 |
| C03 | `wordtree::Insert` on an explicit tree | refinement to a finite map, induction over histories |
| C04 | `GetBufLen`, `Serialize` | structural induction |
| C05 | `Flat::ScanTree` (explicit stack machine and recursive form) | machine = recursion for all images; recursion = specification on compiled trees |
| C06 | same | corollary: the outcome is never `none` |
| C07 | `ScanTree<uint16_t>` with arbitrary key buffer tail | induction, garbage universally quantified |
| C08 | `GetTrack`, `Enumerate`, `SelectView` | induction with absolute offsets |
| C09 | entry `Serialize`, readers | round trip |
| C10 | `LookupList` | exact characterisation, completeness on sorted lists; negation witness for suffix entries |
| C11 | `CheckWord`, `Lemmatize` | simulation between the two callbacks |
| C12 | `MatchClass`, `IsGoodSheme` | monotonicity of the scan |
| C13 | the same | the scan depends on the lower-case copy only |
| C14 | `ToCanonic`, `CapScheme::Get` | induction |
| C15 | `CapScheme::Get` | automaton correctness by induction over parts |
| C16 | `CapScheme::Set` | induction |
| C17 | `Get ∘ Set` | induction; negation witness |
| C18 | `IsGoodSheme` | case analysis |
| C19 | `MbcsCoder`, `Lemmatizer`, `FormBuild` | invariants |
| C20 | `FormBuild`, wrapper split | round trip; buffers of any size from C19 and C46 |
| C21 | the same | exact arithmetic |
| C22 | English/Russian `GetFlexForms` | refinement to a filter/map over the table |
| C23 | `ScanTables`, `CFlexBox` | sortedness invariant |
| C24 | composition | from C05,C10,C23 |
| C25 | `BuildForm`, `GetWdInfo` | from C07 |
| C26 | `GetWdInfo` | from C07,C08,C34 |
| C27 | `MapWordInfo`, `GetGramInfo` | finite tables, kernel evaluation |
| C28 | `interchange::addstep`, `Serialize`, the alternation loop of `MatchClass` (`Model/RusTables.lean`) | induction over the sorted table; powers bit by bit |
| C29 | `FlexTree::CreateTree`, `Grammar::list` over `ScanTree` | the expansion is a word-tree history (C01), then C05 |
| C30,C31 | `Wild::ScanTree`, class matchers | soundness/completeness against a glob specification |
| C32 | `mlmaruGetAPI` etc. | case analysis |
| C33 | `Morpho` | invariant over histories |
| C34 | class tables | invariant over histories |
| C35 | sorted insertion | permutation invariance |
| C36 | `Charset` | induction |
| C37 | `Lemmatizer` merge branch | negation witness |
| C38 | `compile-dict.cpp`, `patricia::ScanTree` (`Model/Fuzzy`) | image of a tree read back by structural induction; the map by induction over the classes; negation witness |
| C39 | fuzzy `Lemmatizer` | invariant over the visits, lemmas as a specification (`Spec/Fuzzy`); sortedness + permutation; negation witnesses |
| C40 | `mlmawide.hpp` over an abstract codec (`Model/Wide`) | loops over the packed texts by induction; composition with C23, C24, C25, C30, C43-C46; negation witnesses |
| C41 | `CheckWord`/`Lemmatize` over a compiled English dictionary | composition of C05, C10, C23 |
| C42 | `BuildForm` after `Lemmatize` | composition |
| C43 | Russian `CheckWord`: `makerus.cpp` (`Model/RusBuild`), `scanClass.hpp`, `mlmamain.cpp` (`Model/RusRun`) | readings of a word as a specification (`Spec/Russian`), composition of C05, C10, C28, C29; negation witness |
| C44 | Russian `Lemmatizer` | readings as for C43, generic record-keeping lemma; negation witnesses for merging |
| C45 | `FlexStripper::GetMinMaxChar`, `Alternator::GetMinMaxChar` | induction over the tables; negation witnesses |
| C46 | `GetWordForms`, `GetFlexForms`, `FormBuild` | forms as a specification (`Spec/RusForms`), traversal order by structural induction |
| C47 | `GetWdInfo` | C07, C34 |
| C48 | composition | C43 after C46 |
| C49 | composition | C43, C44 |
| C50 | fuzzy `BuildForm` | filter over the endings; composition with C39; negation witness |
| C51 | fuzzy `GetModels` | longest prefix that fits of the sorted models |
| C52 | fuzzy `GetWdInfo`, argument checks | offsets of the class records |
| C53 | `mlfawide.hpp` (`Model/Wide`) | composition of C39, C50, C51 with the loops of C40 |
| C54 | `GetSwapLevel` and the functions it calls (`Model/RusGram`) | grammar as a specification (`Spec/RusLevel`); bit fields as arithmetic |
| C55 | `DictReader`, `CreateDict`, `ResolveEng::operator()` (`Model/EngText`) | texts described by splits (`Spec/EngText`); equivalence of scanner and split; induction over lines; composition with C41 |
| C56 | `fxitem`, `ftable`, `fxlist` (`Model/Tfc`) | inductive `SrcEnding` over names (`Spec/Tfc`); offsets and serialization invert (`readCItems` after `ftSer`); induction over derivations both ways |
| C57 | `collector` of makeich (`Model/Ich`) | `linesOf`, `StandsAt` (`Spec/Ich`); invariant of the collector over the lines (`IchInv`), offsets against the flattened image |
| C58 | `Source::Get`, MakeTab, Compile, MapInfo, MapLine (`Model/TabText`) | grammar of files, texts, descriptions, fields (`Spec/TabText`); every reader equivalent to its grammar, then composition with C56 |
| C59 | `load`, MakeTab, Compile of makeich (`Model/TabText`) | grammar of lines `AltText` (`Spec/TabText`); composition with C57 |
| C60 | `BuildStems`, `ResolveClassInfo`, `StripStr`, `Alternator::Find` (`Model/RusText`) | declarative reading of a line `RusLineSays` (`Spec/RusText`), fit of tables (`Spec/RusFit`); each function equals its relation, relations are functional; composition with C43 |
| C61 | as C60, with the run time of C43 | parts of the headword (`HeadParts`): what was cut off is an ending of the table and the basic alternant; the level of its description is 1 (C54 grammar) |
| C62 | as C61, with Lemmatize of C44 | the dictionary request equals the description cut off by the compiler, or that made reflexive (`head_request`); composition with C44 |
| C63 | `fxitem::comp`, `ftable::Insert`, `fxlist::Insert` (Model/Tfc.lean) | the comparison is a strict total order, so the sorted list is determined by its set; tables have pairwise different offsets |
| C64 | api.hpp 172-292 as functions over the call of the interface (Model/Python.lean, Model/Wrapper.lean) | the strings are found again behind their zeros; C44-C48 give the contents |
| C65 | MorphAPI of morph-pad.hpp as functions over the call of the interface (Model/Python.lean) | as C64; in other code pages (UTF-8, which Python uses) by carrying the contract of C84/C87 over: Props/C65Page, C67Page |
| C66 | the lambda of find_match, the exception of the cast (Model/Python.lean) | the calls are those of C31 and do not depend on the answers |
| C67 | api.hpp 325-437 and FuzzyAPI of morph-pad.hpp (Model/Python.lean) | C39, C50-C52 give the contents; the stem of a delivered lexeme is the stem of the word up to capitals; other code pages by C87 |
| C68 | tfcMain (C58), ichMain (C59), rusCompile (C60) and rusCheck (C43) composed; the specification Spec/Pipeline names tables instead of references | each reference of the compiled tables is shown to stand for what the source names (`Realizes`), then C60 and C43 are transferred (`says_to`, `says_of`, `hasForm_iff`) |
| C69 | as C68 with Lemmatize of C44 and the headwords of C61; dictionary forms of source articles in Spec/Pipeline (`SrcDictForm`, `SrcLemma`) | composition with C44_lemmatize_partial; forms for a description coincide (`formsOf_mem`, `dictForms_mem` in Lemmas/PipelineDict); record merging by induction over readings (`lemmGroups_has`); headwords by the parts of C61 |
| C70 | `AllForms` and the per-lexeme part of `LoadDict` of both tools (Model/MakeClasses.lean), external lower-case table | the stem loop is the longest common prefix by induction; the tables of form numbers are compared as permutations with tables written independently; `C70_*_dictionary` compose with C46/C19 |
| C71 | `ClassVal::Add`, the map, `LoadDict` over a list of ids (Model/MakeClasses.lean) | induction over the ids with the invariant `Filling`: the map holds exactly the groups of the lexemes so far |
| C72 | `MergeMap`, `Cover` (Model/MakeClasses.lean) | each turn is a `Step`; invariant `Partly` under a composed map of keys; the number of classes goes down, so the loop ends; Cover is the sublist relation on sorted lists |
| C73 | sorting as any permutation by descending weight; 95 % in integers | induction over the sorted list |
| C74 | `makeClasses`: all steps of `main` but for reading marked lexemes and printing JSON | composition of C71, C72, C73; counting by groups |
| C75 | composition of Model/MakeClasses with Model/Fuzzy | C39_lemma_iff and C39_refs applied to the classes of C74; C39_report_partial, C50_forms_partial |
| C76 | composition of Model/EngText, EngBuild and EngRun | C55_files with C41_lemmas_partial and C22_forms_partial; C76_readings says the readings in terms of lines |
| C77 | composition of the models of C68 with BuildForm, FindForms, GetWdInfo of C46, C47 | `foundForms_mem`, `builtForms_mem`: forms of a source article and of its article with references coincide; articles of lines and of images correspond both ways (`Pipeline.articles_of`) |
| C78 | `Model/Dump`: the text written, character by character; `Spec/Cpp`: a lexer and a reader of declarations | induction over the values with the position; `tok_*`: the tokens of each part of the text |
| C79 | `Model/DicDump`: dump and comparison, the source files as lists of lines; `Spec/DicDump`: a list woven of two, no crossing | invariant of the comparison (`DiffStep`: what is printed and what was common), decreasing sum of what is left to read |
| C80 | `Model/Library`: the files of each compiler; `Spec/Link`: which declaration the run time gets | C78 for each file; `Lemmas/ImageBytes`: every value of every image is below 256 (trees, tables, first-letter bounds), and images are not empty |
| C81 | `Model/Holes`: bit map, next hole, the printing loop, the reading of lines (texts around the numbers left out) | invariant: the bits are the numbers read and the last element is not zero; loop invariant of the printing loop (holes so far exact, next start used) |
| C82 | `Model/Dump`, `Model/Library`: what is written and what is linked; `Spec/Crash`: what may be left of a file | a cut token stream reads as nothing or as a first part of the declarations (`Lemmas/Truncate`); a sublist of the declarations gives each symbol its value or none |
| C83 | the compilers and analysers of both languages, as elsewhere; `Spec/Order` says what another order is (`Moved`) and what a clash is | entries are re-labelled by position in the article list so that both compiled trees are renamings of one tree (`Lemmas/Order`, `OrderLid`); the scan, the record look-up and every collector are shown to see only what the class stands for, not its number (`RusSame`, `RusTwo`, `EngTwo`); for FindMatch the order of the visits is made explicit (`wildOrder`) and shown to depend on neither the values nor the fuel (`WildTwo`); growth from C68 and C41 |
| C84 | the code page variants of the Russian object with the conversion as a parameter (`Model/CodePage`); the contract of the conversion `Page.Ok` and 'the same, converted' (`SameTexts`, `SameLemmas`, `convCalls`) in `Spec/CodePage`; a UTF-8 encoder meeting the contract in `Spec/Utf8` | for every image the scan delivers a list of visits that does not depend on the collector (`Visits`, `WildVisits`); the collectors on both sides are then compared over that list |
| C85 | the tool with its fixed buffers and its output text (`Model/Tools`); loading of the shared library is a parameter; a JSON reader written for this purpose (`Spec/Json`) and the objects expected (`Spec/Tools`) | reading back what is printed, by induction over the records (`Lemmas/Json`, `Lemmas/ToolText`); the records are those of C43, C44, C18 and C84 |
| C86 | the tool with its fixed buffers and its output text (`Model/Tools`); the printed score is a parameter with the contract `ScoreText`; JSON reader (`Spec/Json`) | reading back what is printed, by induction over the records (`Lemmas/Json`, `Props/C86`) |
| C87 | the code page objects of libprob (`Model/FuzzyPage`); the conversion functions are parameters with the contract of C84 (`Page.Ok`, `FuzzyPage.Ok`) | every traversal of an arbitrary image is a list of visits with an end (`Ended`), run with two collectors related step by step (`Lemmas/FuzzyPageRun`), then the finish (`Lemmas/FuzzyPageFinish`) |
| C88 | printing and loading as functions on bytes and JSON values (`Model/ClassText`); the JSON reader is `Spec/Json`, strict or with trailing commas | compositional `Reads` lemmas for the printed text, then the loader evaluated on the value (`Lemmas/ClassText`, `Lemmas/ClassLoad`); C71-C74 for the chain |
| C89 | `GetBestSamples` and `main` on the text of the files (`Model/Marks`); `mtc::bitset_set` external, a set | `fgets` on files of lines (C79, C81), `strstr` by `FirstMark`; `C89_banned` by induction over the ids |
| C90 | `Spec/LemmEnd`: one step of the sizes per reading; `AnswersAs` relates it to the call | induction over the readings with `GroupHolds` (C44), the merge step without its safety hypothesis (`groupStep_join3`) |
| C91 | Model/Letters: IsExcluded, IsIncluded, MakeMask, GetWordset, CheckWord, GetWordRank, the loop of main; Spec/Letters: FitsTemplate, Answers, IsMarkup, WordSource | invariant over the passes of the loop (GameOk: template and sets hold of the sample, tested words are distinct words of the source), termination by the number of untried words; questions from C40 and C47 |
| C92 | Model/Bench: GetWords, the hundred passes, main of benchmark; fgets, the trimming, the callback and the loop of wildcards; Spec/Bench: WordAt | induction over the text for the words, over passes for the counts with C90 for each word; FindMatch in a page from C31 and C84 (rusFound_ids, PageRoom) |
| C93 | Model/Psp: fgets, the words, Accumulate, the division, DumpRanges, DumpMatrix, both mains; Spec/Psp: Cut, Vote, Tallies | each lexeme is a vote (pspWord_eq from AnswersAs of C90), induction over votes for cells and sums |
| C94 | Model/Commands: the four mains over a disk (paths to contents, which can be created); Spec/Commands: IsKey, ValueOf, BadSwitches, RusCall, InDir, Written | induction over the arguments from the end (keyArgs_is), writeFiles_eq for the files, C68/C80 for the contents |
| C95 | Model/FuzzyCommands: the mains of compile-dict, make-classes and dicdump over the disk of Model/Commands; Spec/FuzzyCommands: IsNamespace, CompileTakes, CompileCall | induction over the arguments (compileArgs_takes, compileArgs_not), C80_fuzzy for the contents, C88/C89 for the pipeline, C79 and monotony in the number of rounds for dicdump |
| C96 | Model/Session.lean: requests, replies, histories of calls, uninitialised arrays as arbitrary contents | each call depends on its arguments only: the scan hands out the parts of the word whatever stands behind it (Lemmas/Past.lean); histories by induction |
| C97 | Spec/Pipeline, Model/RusWild: the pipeline of C68 and the search of C30 | the limits of a wildcard search follow from limits on the sources; C30_rus_sound, C31_rus_* carried over by `Realizes` |
| C98 | Model/Speed, Spec/Speed: re.findall as one pass, the counting loop over any two lemmatizers; WordsOf says what the words of a text are | induction on the text; the counts by C65_code_page_partial and C67_code_page_partial, a word of Russian letters being convertible and one part |

## Trusted base
* Lean's kernel.  Axioms: `propext`, `Classical.choice`, `Quot.sound` only; no own axioms, no compiled evaluation
  (`decide +kernel` is evaluated by the kernel).
* The reading of the C++ text into the model: the model is written by hand, each definition citing the lines it stands for.  The
  character tables are transcribed by `tools/gentables.py`.
* Contracts of code that is not in the repository, each visible as a hypothesis or as a small definition:
  * `mtc` serialization: `::Serialize` of an unsigned number writes groups of 7 bits, low first, the high bit set in all but the last
    (`Model/Bytes.lean`), the only encoding `getserial` can read; strings are a length and the bytes.
  * `mtc::radix`/`patricia` writer of the fuzzy dictionary: the image is that of some tree with `PTree.WF` that holds the map (C38).
  * `moonycode` conversions between code pages and UTF-16: `Codec.Ok` (C40, C53); `mbcstombcs` between code page 1251 and another page: `Page.Ok` (C84).
  * `strtoul` with base 0 (`Model/EngText`, `strtoul0`), `fgets`, `strstr` of the C library.
  * `std::sort`: any function returning a sorted permutation; `std::map`/`std::set`/`std::vector`/`std::string`: lists.
  * floating-point weights of the fuzzy analyser: an arbitrary function into a linear order.
* C++ semantics: integers as said above; reading memory that was never written is a parameter (`junk`) of the theorem, so the result
  is proved for every content; reading or writing outside an array is the outcome `none`; evaluation order and aliasing as in the text.

### Modelled
| code | model |
|------|-------|
| `xmorph/typedefs.h` (fragment, getserial, getword16, lexkeylen), `tools/buildmorph.h` lexkeybuf | `Model/Bytes` |
| `tools/wordtree.h` Insert, Search, GetBufLen, Serialize, Enumerate | `Model/WordTree` |
| `xmorph/scandict.h` Counters, Flat and View traversals, SelectView, LookupList | `Model/ScanTree`, `Model/LidTree`, `Model/Stems` |
| `xmorph/capsheme.*`, `lang-*/chartype.cpp` | `Model/Caps`, `Model/CharTables` |
| `xmorph/charlist.h` | `Model/Charset` |
| `tools/classtable.h` | `Model/ClassTable` |
| `tools/plaintable.h`, `tools/ftables.h`, `mtables.cpp`, `makeich/mtable.h` | `Model/RusTables` |
| `utils/tfc/ftable.*`, `makeich/mtable.h` collector | `Model/Tfc`, `Model/Ich` |
| `tools/sourcefile.h`, `utils/tfc/tfc.cpp`, `gramap.cpp` (Russian), `makeich.cpp` | `Model/TabText` |
| `lang-eng/libdict/buildic/*` | `Model/EngBuild` |
| `tools/buildmorph.h` DictReader, CreateDict; `makeeng.cpp` text of an article | `Model/EngText` |
| `makerus.cpp` BuildStems, `lresolve.cpp`, `mtables.cpp` Alternator::Find, `tools/ftables.h` StripStr | `Model/RusText` |
| `lang-eng/libdict/*` without the wildcard search | `Model/EngRun` |
| `lang-rus/libdict/tools/buildic/*` after the text of an article is resolved, `tools/buildmorph.h` CreateDict | `Model/RusBuild` |
| `lang-rus/libdict/grammap.h`, `mlmadefs.h` | `Model/RusGram` |
| `lang-rus/libdict/*` without the wildcard search, `xmorph/buildforms.cpp` | `Model/RusRun` |
| `xmorph/wildscan.h`, `wildClass.hpp` of both languages, FindMatch | `Model/Wild`, `Model/RusWild` |
| `lang-*/libprob/*` at run time, `compile-dict.cpp` | `Model/Fuzzy` |
| code page objects of `lang-*/libprob` (`CMlfaMb<codepage>`: conversion of words, lemmas, forms, samples; stem lengths in UTF-8) | `Model/FuzzyPage` |
| `lang-*/libprob/tools/make-classes.cpp` | `Model/MakeClasses`, its text and the reading of it in compile-dict `Model/ClassText`, the marks `Model/Marks` |
| `lang-rus/libdict/utils/5-letters.cpp` (and `charRank` of 5-samples.cpp, the call of `GetAPI` in wildcards.cpp) | `Model/Letters` |
| `utils/benchmark.cpp`, `lang-rus/libdict/utils/wildcards.cpp` (the formats `%4.1f`, `%.1f`, the clock and the file system left out) | `Model/Bench` |
| `lang-*/libprob/tools/make-psp-tab.cpp` (doubles as exact rational numbers, the format `%6.4f` as a parameter) | `Model/Psp` |
| `xmorph/mlmawide.hpp`, `xmorph/mlfawide.hpp` | `Model/Wide` |
| `xmorph/codepages.hpp`, the code page objects of `lang-rus/libdict/mlmamain.cpp` | `Model/CodePage` |
| `api.hpp` byte wrappers, `Morpho` holder | `Model/Wrapper`, `Model/Holder`, `Model/Python` |
| `pybind11/morph-pad.hpp` (code page 1251) | `Model/Python` |
| factory functions | `Model/Factory` |
| `lang-rus/dicdump/dicdump.cpp` | `Model/DicDump` |
| `utils/get-holes.cpp` (numbers printed; texts around them left out) | `Model/Holes` |
| `utils/lemmatize.cpp`, `utils/stematize.cpp` | `Model/Tools` |
| `tools/dumppage.h` and its users, `license.h` | `Model/Dump`, `Model/Library` |
| `main` of compile-dict, make-classes, dicdump: arguments, files, exit status (JSON reader, conversion, tree as parameters) | `Model/FuzzyCommands` |
| `pyrusmorph-speed.py`: the words and the counts (not the times) | `Model/Speed` |
| `main` of tfc, makeich, makerus, makeeng: arguments, files, exit status; the Ukrainian words of `gramap.cpp` (index file format and conversions as parameters) | `Model/Commands` |

### The model against the shipped sources
The model was compiled and run (outside of the proofs; nothing below is used by a theorem) over all Russian sources of the repository:
* the ending tables and the alternation tables of `lang-rus/tables` compile with the modelled `tfc` and `makeich`; all dictionary files compile with the modelled
  `buildic`: 142294 articles; classes 9696 bytes, trees of endings 438176 bytes, 34 letters in stems, stems up to 33 letters, endings up to 11, at most 12
  descriptions of one ending: far inside of the limits the theorems ask for;
* no form is lost by the bounds of first letters (the defect C45 describes does not occur in the shipped data);
* of `SrcHeads`, "alive" and "bare" hold for all shipped tables; "apart" fails for 300, "once" for 38 tables, so C69 speaks of the others;
* some 250 articles have no dictionary form: for their words the lemmatizer runs into the undefined behaviour of `C44_no_dictionary_form`.

### Not modelled
* Code page detection; what the compilers print about their work.
* `lang-ukr` (an unfinished port), `py*morph` (module declarations), `garbage`, `5-samples.cpp` but its table (it calls `CheckHelp`, which no class of the repository declares, and cannot be compiled), `utils` other than `tfc`, `get-holes`, `lemmatize`, `stematize` and `benchmark`, tests.
* In the Python bindings: the conversions of pybind11 (but for words of Russian letters, `pyText`); the life time of strings (the match objects of `find_match` keep pointers into
  a buffer on the stack of the search, so reading their text after the callback has returned is undefined: not expressible here).
* Of the two command line tools: `dlopen`, `dlsym` (a parameter says what they find); the text of `%6.4f` (contract `ScoreText`); the exit
  status is taken to be the low 8 bits of what `main` returns.
* Threads: the analysers keep no mutable state; the model has none, reference counts excepted (`Model/Holder`, sequential).
* Exceptions: the model is of the paths without allocation failure.
