import json
P=[]
def p(title,statement,quant,why,anchors):
    P.append(dict(id="C%02d"%(len(P)+1),title=title,statement=statement,quantifier=quant,why_tests_cant=why,anchors=anchors))

p("Numbers stored in a compiled dictionary are read back unchanged",
  "Every 32-bit lexeme id, offset or length, and every 16-bit class word, that the dictionary compiler stores is read back by the run-time as the same number, the reader consumes exactly the bytes that were written and stops exactly at the next field, whatever bytes follow.",
  "every 32-bit number, every 16-bit word, every following byte string",
  "There are 2^32 values and unboundedly many continuations; a test samples a few boundary values only.",
  ["xmorph/typedefs.h: getserial, getword16","tools/wordtree.h: Serialize"])
p("A lexeme id has one lookup key, shared by compiler and run-time",
  "The key under which the compiler files a lexeme id equals the key the run-time looks for, and different lexeme ids have different keys, so BuildForm/GetWdInfo on an id never reaches another lexeme.",
  "every pair of 32-bit lexeme ids",
  "Pairs of 2^32 ids; the collision region (ids from 2^24) is never reached by a test dictionary.",
  ["xmorph/typedefs.h: lexkeylen","tools/buildmorph.h: lexkeybuf"])
p("The dictionary under construction is a map from stems to entry lists",
  "After any sequence of insertions, asking the construction tree for a stem yields exactly the entries inserted under that stem and nothing for any other string; the node children stay strictly ordered.",
  "every finite sequence of insertions of arbitrary byte strings, every query string",
  "The histories are unbounded; ordering mistakes appear only for particular prefixes and insertion orders.",
  ["tools/wordtree.h: Insert","tools/buildmorph.h: DictReader"])
p("The compiled image has exactly the announced size",
  "For every dictionary tree the compiler writes exactly as many bytes as it computed beforehand, for the whole tree and for every subtree, so that every stored subtree length is right.",
  "every tree of stems and values",
  "Size mismatches depend on where lengths cross the 127/16383 varint borders; tests see one dictionary.",
  ["tools/wordtree.h: GetBufLen, Serialize"])
p("Dictionary lookup finds exactly the stored stems that are prefixes of the word, longest first",
  "For every compiled dictionary and every word, the lookup visits exactly those stored stems that are prefixes of the word, from the longest to the shortest, passes to each the remaining part of the word, and stops at the first visit that reports a result.",
  "every dictionary (set of stems without zero bytes, depth below the fixed stack), every word",
  "Needs all dictionaries and all words; the skipping/early-exit logic depends on sibling order and on which nodes carry data.",
  ["xmorph/scandict.h: Flat::ScanTree, scan_stack::findchar"])
p("Lookup on a compiled dictionary never reads outside the image and terminates",
  "On every compiled dictionary no lookup reads a byte outside the image or overruns the fixed 64-level stack as long as the word is shorter than the library's word limit.",
  "every compiled dictionary, every word shorter than 48 bytes",
  "Out-of-bounds reads are silent in tests and depend on image layout.",
  ["xmorph/scandict.h: Flat::ScanTree","lang-rus/libdict/mlmamain.cpp: CheckWord"])
p("Lookup by lexeme id is exact",
  "Looking up a lexeme id returns the stored record of precisely that id when the id was compiled in, and nothing otherwise, even though ids contain zero bytes and the key buffer tail is uninitialised.",
  "every set of ids below 2^24, every queried id, every content of the uninitialised key buffer tail",
  "The result must not depend on stack garbage, which a test cannot enumerate.",
  ["xmorph/scandict.h: Flat::ScanTree","lang-rus/libdict/mlmamain.cpp: BuildForm, GetWdInfo"])
p("A stored stem position leads back to that stem",
  "For each lexeme the position recorded at compile time, when followed at run time, reconstructs exactly the stem string the lexeme was filed under and selects exactly that lexeme's entry.",
  "every compiled dictionary, every lexeme in it",
  "Offsets are absolute byte positions in an image of unbounded size; one off-by-one breaks only some lexemes.",
  ["xmorph/scandict.h: Flat::GetTrack, SelectView","tools/wordtree.h: Enumerate","tools/buildmorph.h: CreateDict"])
p("Stem entries survive compilation",
  "Every stem entry (first-letter bounds, lexeme id, class reference, optional suffix) written by the compiler is read back by the run-time with the same fields.",
  "every entry with class offset below 0x8000 and suffix shorter than 128 bytes, every list of such entries",
  "Field packing interacts (top bit of the class word doubles as suffix flag); tests cover few combinations.",
  ["xmorph/scandict.h: LookupList, SelectView","lang-eng/libdict/buildic/makeeng.cpp: entry_type::Serialize","lang-rus/libdict/tools/buildic/makerus.cpp"])
p("First-letter pruning reports only matching entries and loses none",
  "Among the entries filed under a stem the word scanner reports exactly those whose suffix ends the word and whose first-letter bounds admit the remaining ending.",
  "every entry list in compiler order, every remaining word part",
  "The early break is only wrong for special mixtures of suffix entries and bounds.",
  ["xmorph/scandict.h: LookupList","lang-eng/libdict/buildic/makeeng.cpp: entry_type::compare"])
p("CheckWord and Lemmatize agree",
  "CheckWord returns 1 exactly when Lemmatize reports at least one lexeme (buffers permitting), returns 0 exactly when Lemmatize reports none, and both return the same error code for the same bad input.",
  "every dictionary, every word, every settings value",
  "Two independent scans with different callbacks over all dictionaries and words.",
  ["lang-rus/libdict/mlmamain.cpp: CheckWord, Lemmatize","lang-eng/libdict/mlmamain.cpp: CheckWord, Lemmatize"])
p("Ignoring capitals only adds results",
  "A word accepted with the default settings is accepted with sfIgnoreCapitals as well.",
  "every dictionary, every word",
  "Must hold for each capitalization pattern of each word of each dictionary.",
  ["lang-rus/libdict/scanClass.hpp: MatchClass","lang-eng/libdict/scanClass.hpp: MatchClass","api.h: sfIgnoreCapitals"])
p("With capitals ignored, letter case is irrelevant",
  "With sfIgnoreCapitals two words that differ only in letter case get the same CheckWord answer and the same Lemmatize lexemes.",
  "every dictionary, every pair of words with equal lower-case form",
  "All words and all case patterns.",
  ["lang-rus/libdict/mlmamain.cpp: CheckWord, Lemmatize, ToCanonic","xmorph/capsheme.cpp: CapScheme::Get"])
p("Malformed words are answered with the documented code",
  "A null or empty word yields 0, a word of 48 bytes or more yields WORDBUFF_FAILED, a word with letters of no known kind or with ill-formed capitalization yields 0 under default settings; no such word is ever reported as found.",
  "every byte string of every length, every dictionary",
  "Unbounded lengths and all byte patterns.",
  ["xmorph/capsheme.cpp: CapScheme::Get","lang-rus/libdict/mlmamain.cpp: CheckWord, ToCanonic"])
p("Capitalization analysis classifies every word correctly",
  "For a word of hyphen-separated parts the analysis returns the length, the number of parts and for every part whether it is all small, capitalized or all capitals, and flags the word as invalid exactly when some part is none of these; the canonical copy is the word lower-cased byte by byte.",
  "every word shorter than the buffer, any number of parts up to four",
  "A finite automaton over unbounded strings: all strings are needed.",
  ["xmorph/capsheme.cpp: CapScheme::Get, capStateMatrix"])
p("Restoring capitalization changes nothing but letter case",
  "Applying the minimal capitalization to a produced form keeps its length and its letters up to case, leaves hyphens in place, and never touches bytes after the terminator.",
  "every canonical form, every minimal capitalization",
  "All strings; index arithmetic across hyphen parts.",
  ["xmorph/capsheme.cpp: CapScheme::Set"])
p("A form printed with minimal capitalization is accepted again",
  "A form produced by the library, capitalized to its lexeme's minimal scheme, satisfies that lexeme's own capitalization requirement when looked up.",
  "every form of up to three parts, every minimal capitalization",
  "All strings; fails only for special part lengths.",
  ["xmorph/capsheme.cpp: CapScheme::Get, Set","xmorph/capsheme.h: IsGoodSheme"])
p("Capitalization requirements are monotone",
  "A spelling good enough for a lexeme that demands more capitals is good enough for a lexeme that demands fewer.",
  "every capitalization scheme word, every pair of requirement levels",
  "All 2^32 scheme words.",
  ["xmorph/capsheme.h: IsGoodSheme"])
p("No output ever exceeds the caller's buffers",
  "Lemmatize, BuildForm and FindForms never write outside the buffers supplied, for any buffer sizes including zero; when a buffer is too small they return the documented negative code instead.",
  "every dictionary, every word, every triple of buffer sizes",
  "Every combination of sizes with every result count.",
  ["xmorph/codepages.hpp: MbcsCoder::append, ToCodepage","lang-rus/libdict/lemmatize.cpp: Lemmatizer","lang-rus/libdict/buildform.cpp: FormBuild"])
p("Form buffers are filled with exactly n zero-terminated strings",
  "When BuildForm or FindForms returns n > 0 the buffer starts with n consecutive zero-terminated strings, and splitting it the way the C++ wrapper does gives exactly the produced forms in order.",
  "every form list without zero bytes, every sufficiently large buffer",
  "All numbers and lengths of forms.",
  ["api.hpp: BuildForm, FindForms","lang-rus/libdict/buildform.cpp: FormBuild::operator()","xmorph/codepages.hpp: MbcsCoder"])
p("Exact buffer size at which form output succeeds",
  "Form output succeeds exactly when the buffer has one byte more than the total length of the strings with their terminators; with any smaller buffer LEMMBUFF_FAILED is returned.",
  "every form list, every buffer size",
  "The border depends on all lengths.",
  ["xmorph/codepages.hpp: ToCodepage, MbcsCoder::append","lang-rus/libdict/buildform.cpp: FormBuild::operator()"])
p("BuildForm builds exactly the forms with the requested form id",
  "For a lexeme and a form id the forms built are exactly stem+ending+suffix over the endings listed under that id in the lexeme's ending table, in table order.",
  "every ending table, every stem, suffix and form id",
  "All tables and ids.",
  ["lang-eng/libdict/buildform.cpp: GetFlexForms, GetWordForms","xmorph/buildforms.cpp: GetFlexForms"])
p("Ending lookup in the English tables is exact",
  "For an ending the table scan reports exactly the form ids filed under that ending, in table order; the early stop loses nothing on the tables the compiler writes.",
  "every article string, every ending",
  "All tables and endings; early exit depends on sort order and common prefixes.",
  ["lang-eng/libdict/scanClass.hpp: ScanDict::ScanTables","lang-eng/libdict/buildic/flexbox.h: CFlexBox::AddInflex, Serialize"])
p("What BuildForm builds, Lemmatize recognizes",
  "Every form built for a lexeme and a form id is recognized by CheckWord/Lemmatize (capitals ignored) and reported with the same lexeme id and form id.",
  "every compiled dictionary, every lexeme, every form id",
  "Round trip between two independently written traversals for all dictionaries.",
  ["lang-eng/libdict/buildform.cpp","lang-eng/libdict/scanClass.hpp","xmorph/scandict.h"])
p("Unknown lexeme ids and bad arguments",
  "BuildForm with a null or empty output buffer returns ARGUMENT_FAILED; with an id that is in no dictionary entry it returns 0 and writes nothing; GetWdInfo on such an id returns 0.",
  "every dictionary, every id not in it, every buffer",
  "All ids outside all dictionaries.",
  ["lang-rus/libdict/mlmamain.cpp: BuildForm, GetWdInfo","lang-eng/libdict/mlmamain.cpp: BuildForm, GetWdInfo"])
p("GetWdInfo returns the part of speech under which the lexeme was compiled",
  "GetWdInfo on a compiled lexeme id returns 1 and the part of speech of that lexeme.",
  "every dictionary, every lexeme in it",
  "All dictionaries; depends on offsets and class references.",
  ["lang-rus/libdict/mlmamain.cpp: GetWdInfo","lang-eng/libdict/buildic/makeeng.cpp: ClassTable"])
p("Russian form ids and grammatical descriptions correspond one to one",
  "For every part of speech, mapping a form id to its grammatical description and back gives the same form id, so the ids printed by Lemmatize can be fed to BuildForm.",
  "every part-of-speech word, every form id",
  "All 65536 x 256 combinations of word info and id.",
  ["lang-rus/libdict/grammap.h: MapWordInfo, GetGramInfo"])
p("Stem alternation is resolved exactly",
  "For a stem with an alternation table the word scanner tries exactly those alternants that are prefixes of the remaining word, with exactly the powers flagged for them; the early stop loses nothing on sorted tables.",
  "every sorted alternation table, every remaining word part",
  "All tables and words; early exit depends on common prefixes.",
  ["lang-rus/libdict/scanClass.hpp: MatchClass","lang-rus/libdict/tools/makeich/mtable.h: interchange"])
p("Russian ending tables: lookup is exact",
  "Looking an ending up in a compiled ending tree reports exactly the grammatical descriptions filed under precisely this ending that pass the number/alternation filter.",
  "every compiled ending tree, every ending, every filter",
  "All trees and endings.",
  ["lang-rus/libdict/scanClass.hpp: Grammar::list, ScanDict::ScanTables","tools/plaintable.h"])
p("Wildcard search: every reported form matches the template",
  "Every form reported by FindMatch matches the template, where * stands for any (possibly empty) string and ? for one letter.",
  "every dictionary, every template",
  "All templates and dictionaries; wildcard backtracking.",
  ["xmorph/wildscan.h: Wild::ScanTree","lang-eng/libdict/wildClass.hpp","lang-rus/libdict/wildClass.hpp"])
p("Wildcard search finds every stored form that matches",
  "Every stored form that matches the template is reported by FindMatch.",
  "every dictionary, every template",
  "All templates and dictionaries; wildcard backtracking and pruning.",
  ["xmorph/wildscan.h: Wild::ScanTree, ScanList","lang-eng/libdict/wildClass.hpp"])
p("API factory: known code pages succeed, everything else fails cleanly",
  "mlmaruGetAPI succeeds exactly for keys 'libmorph.api.v4:' followed by one of the listed code page names in any letter case, returns the instance of that code page, and otherwise returns EINVAL (with the output pointer nulled when the prefix is right).",
  "every key string",
  "All strings; case-insensitive comparison.",
  ["lang-rus/libdict/mlmamain.cpp: mlmaruGetAPI, mlmaruLoadCpAPI","lang-eng/libdict/mlmamain.cpp: mlmaenGetAPI"])
p("Interface references are balanced",
  "For any sequence of copies, assignments and destructions of the C++ smart holders each API object is attached exactly as often as it is held, and detached exactly once per release.",
  "every finite history of constructions, copies, assignments (including self-assignment) and destructions",
  "Unbounded histories.",
  ["api.hpp: Morpho"])
p("Identical word classes share one class record, different ones never do",
  "Adding word classes in any order yields for each class the offset at which exactly its record is written in the class image; equal classes share the offset, different ones get different offsets.",
  "every sequence of class insertions",
  "Unbounded histories.",
  ["tools/classtable.h: AddClass","lang-eng/libdict/buildic/makeeng.cpp: ClassTable"])
p("The dictionary image does not depend on the order of the articles",
  "Compiling the same set of entries in any order produces byte-identical stem images.",
  "every permutation of every list of entries",
  "Factorially many orders.",
  ["tools/buildmorph.h: DictReader","tools/wordtree.h: Insert","lang-eng/libdict/buildic/makeeng.cpp: entry_type::compare"])
p("Byte sets list their members once, in order",
  "A byte set reports exactly the inserted bytes, in ascending order, and signals overflow exactly when the target buffer is too small.",
  "every history of insertions, every buffer size",
  "2^256 sets.",
  ["xmorph/charlist.h: Charset"])
p("Lemma merging reports each grammatical description once",
  "When two entries of the same lexeme match one word, Lemmatize reports the lexeme once with the descriptions of both entries.",
  "every dictionary with lexemes filed under several classes, every word",
  "Needs dictionaries with special structure and exact buffer borders.",
  ["lang-eng/libdict/lemmatize.cpp: Lemmatizer::operator()","lang-rus/libdict/lemmatize.cpp: Lemmatizer::operator()"])
p("Fuzzy models: lookup by word ending is exact",
  "The fuzzy analyser visits exactly the stored ending models that are suffixes of the word.",
  "every model tree, every word",
  "All trees and words.",
  ["lang-rus/libprob/scandict.hpp: patricia::ScanTree","lang-eng/libprob/scandict.hpp"])
p("Fuzzy lemmas are ordered by weight and none is lost",
  "The list of fuzzy lemmas returned is ordered by descending weight and is a permutation of the collected distinct models.",
  "every list of collected models",
  "All lists.",
  ["lang-rus/libprob/lemmatizer.hpp","lang-eng/libprob/lemmatizer.hpp"])
p("The wide-character interface mirrors the byte interface",
  "The wide-character Lemmatize returns the same count, lexemes and descriptions as the byte interface, and every lemma pointer addresses the converted text of the same lemma.",
  "every result list, every buffer",
  "All result lists and pointer offsets.",
  ["xmorph/mlmawide.hpp: CMlmaWc::Lemmatize"])
p("A word is recognized exactly when it is a form of some article",
  "CheckWord finds a word exactly when some article of the dictionary has it as a form - stem, one of its endings, suffix - and the spelling has the capitals the article demands (or capitals are ignored); Lemmatize reports exactly those articles, those with longer stems first.",
  "every English dictionary within the format limits, every word, every settings value",
  "All dictionaries and words: the path goes through compiler, four images and three scanners.",
  ["lang-eng/libdict/mlmamain.cpp: CheckWord, Lemmatize","lang-eng/libdict/buildic/makeeng.cpp","xmorph/scandict.h"])
p("FindForms builds the requested forms of every reading of the word",
  "FindForms returns, one after another, the forms with the requested number of every lexeme the word is a form of.",
  "every English dictionary, every word, form number and buffer",
  "All dictionaries and words.",
  ["lang-eng/libdict/mlmamain.cpp: FindForms","lang-eng/libdict/buildform.cpp"])
p("Russian CheckWord accepts exactly the forms of the dictionary",
  "The Russian CheckWord finds a word exactly when some article has it as a form - stem, alternant serving the ending's level, ending of its flexion table, suffix - and the spelling has the capitals the article demands (or capitals are ignored).",
  "every Russian dictionary (articles, compact flexion tables, alternation tables) within the format limits, every word of at most 47 letters and 8 parts, every settings value",
  "All dictionaries and words: the path goes through the table compiler, the stem compiler, three images and four scanners.",
  ["lang-rus/libdict/mlmamain.cpp: CheckWord","lang-rus/libdict/scanClass.hpp: MatchClass","lang-rus/libdict/tools/buildic/makerus.cpp","tools/plaintable.h: CreateTree"])
p("Russian Lemmatize reports exactly the articles the word is a form of",
  "The Russian Lemmatize reports for every reading of the word (article and ending) the id of the lexeme, its dictionary form and the grammatical descriptions the tables give that ending; consecutive readings of one lexeme are joined into one record.",
  "every Russian dictionary within the limits, every word, every settings value, all buffer sizes",
  "All dictionaries, words and buffer sizes.",
  ["lang-rus/libdict/mlmamain.cpp: Lemmatize","lang-rus/libdict/lemmatize.cpp: Lemmatizer::operator()"])
p("First-letter bounds stored with a stem cover every tail the tables allow",
  "The pair of letters stored with a stem to skip it quickly bounds the first letter of every continuation (alternant and ending) the article's tables allow, so no form is lost by the quick test.",
  "every flexion table and alternation table, every article",
  "All tables.",
  ["tools/ftables.h: FlexStripper::GetMinMaxChar","lang-rus/libdict/tools/buildic/mtables.cpp: Alternator::GetMinMaxChar","xmorph/scandict.h: LookupList"])
p("Russian FindForms and BuildForm build exactly the forms the tables give",
  "For every reading of a word (FindForms) or for a lexeme id (BuildForm) the forms returned for a form number are the stem, the least alternant serving the form, each ending the flexion table has for it, and the suffix, in descending order of the endings; the result is their count or an error code when the buffer is too small.",
  "every Russian dictionary within the limits, every word or id, form number and buffer",
  "All dictionaries, form numbers and buffer sizes.",
  ["lang-rus/libdict/mlmamain.cpp: BuildForm, FindForms","lang-rus/libdict/buildform.cpp: GetWordForms, FormBuild","xmorph/buildforms.cpp: GetFlexForms"])
p("Russian GetWdInfo returns the part of speech of the lexeme with the id",
  "GetWdInfo stores the part-of-speech byte of the article with the given id and answers 1, or answers 0 when there is none.",
  "every Russian dictionary within the limits, every id",
  "All dictionaries and ids.",
  ["lang-rus/libdict/mlmamain.cpp: GetWdInfo"])
p("A Russian form built is recognized again as a form of the same article",
  "Every form FindForms or BuildForm delivers is accepted by CheckWord (capitals ignored), as a form of the article it was built for.",
  "every Russian dictionary within the limits, every article, every form number",
  "All dictionaries; relates two independent code paths.",
  ["lang-rus/libdict/buildform.cpp: GetWordForms","lang-rus/libdict/scanClass.hpp: MatchClass"])
p("Russian CheckWord and Lemmatize agree",
  "CheckWord answers 1 for a word exactly when Lemmatize, given enough room, reports at least one lemma.",
  "every Russian dictionary within the limits, every word, every settings value",
  "All dictionaries and words; relates two code paths.",
  ["lang-rus/libdict/mlmamain.cpp: CheckWord, Lemmatize"])
p("Fuzzy BuildForm gives exactly the forms of the form number, and undoes Lemmatize",
  "The fuzzy BuildForm with a stem, a class and a form number returns exactly the stem followed by each ending the class has for that number; in particular, for every lemma and description the fuzzy Lemmatize reports for a word, BuildForm with that stem, class and form number returns the word among its forms.",
  "every set of source classes within the limits, every word or stem, every buffer",
  "All dictionaries and words; relates two code paths.",
  ["lang-rus/libprob/buildforms.hpp","lang-rus/libprob/mlfamain.cpp: BuildForm, Lemmatize","lang-eng/libprob/buildforms.hpp"])
p("Fuzzy GetModels lists the sample words of a class by descending weight",
  "GetModels writes the sample words of the class, of larger weight first, each terminated by a zero, as many as fit the buffer, and returns their number; an error when not even the first fits.",
  "every class, every buffer",
  "All classes and buffer sizes.",
  ["lang-rus/libprob/mlfamain.cpp: GetModels","lang-rus/libprob/tools/compile-dict.cpp"])
p("Fuzzy class numbers: the part of speech, or a bad argument",
  "GetWdInfo returns the part of speech of a class that exists; for a class number that does not, GetWdInfo, GetModels and BuildForm report a bad argument and leave the client's buffers as they were.",
  "every set of source classes, every class number, every buffer",
  "All dictionaries and numbers.",
  ["lang-rus/libprob/mlfamain.cpp: GetWdInfo, GetModels, BuildForm","lang-rus/libprob/classtable.hpp: GetClass"])
p("The wide fuzzy interface mirrors the byte one",
  "The wide-character fuzzy Lemmatize, BuildForm and GetModels give the results of the byte interface for the converted text, converted back; nothing is written when an error is returned.",
  "every set of source classes within the limits, every wide word, every buffer, every code page conversion that meets its contract",
  "All words, buffers and conversions.",
  ["xmorph/mlfawide.hpp"])
p("The variant of an alternating Russian stem follows the grammar of the form",
  "Which of up to three variants of the stem a form is recognized and built with depends only on the part of speech, the kind of alternation of the verb, and tense, person, participle, number, case and animacy of the form, as in the grammar: e.g. the genitive plural of feminine and neuter nouns, the nominative singular of masculine nouns, the first person singular, the past passive participle, the comparative.",
  "every word information, description and animacy flags",
  "All combinations of 16-bit descriptions.",
  ["lang-rus/libdict/mlmadefs.h: GetVerbMixPower*, MascNotAnimMixPower .. GetAdjectivMixPower, steminfo::GetSwapLevel","lang-rus/libdict/tools/buildic/makerus.cpp: mixTypes"])
p("The English dictionary source is read line by line, an article or nothing each",
  "The English compiler takes a line of its source text as an article exactly when the line is not a comment, the first mark \"LID:\" stands after a space or tab and a non-zero number follows, and the text (below 256 bytes) is a word, endings beginning with '|', a part of speech and marks; the article has the stem, endings, part of speech, suffix and id written there. Files of such lines compile to the dictionary of those articles in order, and CheckWord with it knows the words of the text.",
  "every source text: any number of files and lines of any bytes",
  "All texts; whole-program composition of parser, compiler and recognizer.",
  ["tools/buildmorph.h: CreateDict, DictReader", "lang-eng/libdict/buildic/makeeng.cpp: ResolveEng::operator(), FindStemPostfix, MapPartOfSpeech"])
p("The compiler of ending tables writes exactly the endings of its source",
  "After a successful run of the ending-table compiler, the reference that the index file gives for a table name leads, in the image file, to a table with exactly the endings the source defines under that name - including those obtained by continuing a line with the endings of another, named, table, with descriptions united and flags intersected. The index lists every name once. The compiler fails exactly when a reference has no table or the tables exceed 128 kilobytes; it never writes a dangling reference.",
  "every list of source tables: any headers with any names, any lines, any references between tables",
  "All tables and all reference graphs, with nesting of any depth.",
  ["utils/tfc/ftable.h: fxitem, ftable, fxlist::StoreTab, StoreRef", "utils/tfc/ftable.cpp: ftable::RelocateReferences, RelocateOffsetSize, fxlist::Insert, Relocate"])
p("The compiler of alternation tables writes exactly the alternations of its source",
  "After a successful run of the alternation-table compiler, the entry the index gives for a table name is exactly the source lines of that table, in source order: each with its condition and a reference that leads, in the image file, to the alternation table of that very line. The index lists exactly the names of the source, each once. A source whose headers that share a name have the same names, with a name in every header and conditions shorter than 16 letters, is compiled.",
  "every list of source lines: any headers with any names, any conditions, any alternants",
  "All sources: identical alternation lists are shared between tables and offsets accumulate, so a defect shows only in certain combinations of lines.",
  ["lang-rus/libdict/tools/makeich/mtable.h: collector::add_interchange, set_conditions, set_interchange, relocate_tables, StoreTab, StoreRef", "lang-rus/libdict/tools/buildic/mtables.cpp: Alternator::Load"])
p("The source files of ending tables are read as they are written",
  "The tables the ending-table compiler reads from its source are exactly those the source says: lines without comments (\"//\" at the beginning or after a blank), tables with a header, braces and lines, other files included relative to the folder of the including one; endings with a description made of grammatical words, on top of the descriptions that stand before them, and references to other tables. A successful run writes an image in which every name has exactly the endings the text says; a text whose references have tables and that fits is compiled.",
  "every file system: any files with any lines, comments, blanks, includes of any depth; every sequence of grammatical words",
  "Texts and include graphs are unbounded.",
  ["tools/sourcefile.h: Source::Get, Source::Open", "utils/tfc/tfc.cpp: MapLine, MakeTab, Compile, main", "utils/tfc/gramap.cpp: MapInfo, InitRus"])
p("The source files of alternation tables are read as they are written",
  "The lines the alternation-table compiler reads from its source are exactly those the source says: each with the header of its table, its condition and two or more alternants (\"''\" for an empty one). A successful run writes an index and an image in which every name has exactly its lines, in order; a text whose headers are consistent and whose conditions are shorter than 16 letters is compiled.",
  "every file system: any files with any lines, comments, blanks, includes of any depth",
  "Texts and include graphs are unbounded.",
  ["tools/sourcefile.h: Source::Get, Source::Open", "lang-rus/libdict/tools/makeich/makeich.cpp: load, MakeTab, Compile, main"])
p("The source text of the Russian dictionary is read as it is written",
  "The Russian dictionary compiler makes of every line exactly what the line says: nothing (empty, without an id, id 0), a text for the file of unknown words (comments, lines that make no article), or articles - the headword without boundary marks and with \"е\" for \"ё\", its part of speech from class and type, marks of usage, the suffix after \"post:\", the table of endings from type and index; what is left of the word after the ending of the headword (or from '@' on) is cut off; the first alternation of the table whose condition holds and whose basic alternant ends the word, cut off too; for a preposition the scale of cases; an index \"x//y\" that makes no article stands for the articles of both parts. Files are compiled to the dictionary of the articles of their lines in order, and CheckWord with it accepts only forms of articles of some line, and all of those within the limits of C43.",
  "every line, every list of files of any lines; all tables of endings and alternations within the shape the real ones have (RusFit)",
  "Texts, tables and headwords are unbounded; a misread line shows up only as a word that is silently missing or wrongly inflected.",
  ["tools/buildmorph.h: DictReader, CreateDict, PutUnknown", "lang-rus/libdict/tools/buildic/makerus.cpp: BuildStems, GetSubtext", "lang-rus/libdict/tools/buildic/lresolve.cpp: ResolveClassInfo, LexFlags, GetRemark, CaseScale, GetPostfix", "lang-rus/libdict/tools/buildic/mtables.cpp: Alternator::Find, MapMixType, GetDefaultStr", "tools/ftables.h: FlexStripper::StripStr"])
p("The headword of a Russian dictionary line is a form of its articles and is recognized",
  "For every line of the Russian dictionary source, the headword (without boundary marks, \"е\" for \"ё\") is a form of each article the line makes, and CheckWord with the compiled dictionary recognizes it in every spelling its part of speech admits.",
  "every list of source files within the limits of C60 and C43; every regular line (no '@', the suffix really ends the headword, no ':' in the index of an inflected word); every article of it that is not a masculine, plural-only noun with alternation",
  "It relates what the compiler cuts off (ending, basic alternant, suffix) to what the run time puts back through two other images, for all tables and headwords.",
  ["lang-rus/libdict/tools/buildic/lresolve.cpp: ResolveClassInfo", "tools/ftables.h: FlexStripper::StripStr", "lang-rus/libdict/mlmadefs.h: GetSwapLevel", "lang-rus/libdict/mlmamain.cpp: CheckWord"])
p("Russian Lemmatize gives back the headword of the source line",
  "With a dictionary compiled from source text, for every word and every reading Lemmatize reports, the text reported is the headword of a line of the source whose article the reading is (with the capitals the article demands); in particular every article has a dictionary form, so Lemmatize never takes the undefined path. With several endings for a headword the headword is among the dictionary forms.",
  "every word within the limits of C44, every list of source files within the limits of C60, every setting without nfAdjVerbs; all lines regular (C61), one ending per headword description",
  "It is a round trip through text, two table images, the stem tree and the form builder, for unbounded texts and words.",
  ["lang-rus/libdict/mlmamain.cpp: Lemmatize", "lang-rus/libdict/lemmatize.cpp", "lang-rus/libdict/mlmadefs.h: FindDictForm", "xmorph/buildforms.cpp: GetFlexForms", "lang-rus/libdict/tools/buildic/lresolve.cpp: ResolveClassInfo"])
p("Compiled ending tables depend only on the sets of lines; equal tables are stored once, different ones never merged",
  "Reordering or repeating the lines of ending tables changes neither the compiled image nor the index. Two names refer to the same place of the image exactly if their tables have the same lines.",
  "every list of tables (header and lines), every two names; no bound on tables or lines",
  "It ranges over all permutations and repetitions of all tables; a comparison that overlooks one field merges tables only for particular pairs.",
  ["utils/tfc/ftable.h: fxitem::comp, ftable::Insert", "utils/tfc/ftable.cpp: fxlist::Insert, Relocate"])
p("The C++ convenience calls deliver what the byte interface reports",
  "The vectors and strings returned by the C++ calls Lemmatize(word), FindForms(word, form), BuildForm(id, form), GetWdInfo(id) contain exactly the lexemes, forms and part of speech of the dictionary for that word or number, when the internal arrays suffice, whatever those contained before; Lemmatize throws when they do not, the calls for forms return an empty list; unknown numbers give no forms and 0.",
  "every Russian dictionary (English for Lemmatize), word, form number, setting and content of the uninitialised internal buffers",
  "Results depend on uninitialised stack memory and on every dictionary; tests see the memory of one run.",
  ["api.hpp: IMlmaXX wrappers, lexeme"])
p("The Python dictionary calls deliver what the library reports",
  "lemmatize gives one object for each lexeme of the word with its number, and its dictionary form and descriptions unless they were refused by flag; check_word gives 1 or 0; build_form gives the forms. Only the flag that ignores capitals reaches the library. When the arrays do not suffice lemmatize gives an empty list, as for an unknown word; check_word answers -4 for words of 48 bytes and more.",
  "every dictionary, word, settings and content of the uninitialised buffers",
  "As C64; the silent empty list shows only for words with more than 32 lexemes.",
  ["pybind11/morph-pad.hpp: MorphAPI"])
p("Python find_match: calls, answers and exceptions",
  "The Python function is called once for each lexeme with a form that matches the template, with these forms, whatever it answers; the result is its answer to the last call, -1 if that one raised, 0 if there was none; only an answer that is no integer ends the search at once, with an exception. (Documented otherwise: the calls do not stop at a nonzero answer.)",
  "every dictionary, template and function (its answer may depend on all previous calls)",
  "It ranges over all stateful callbacks.",
  ["pybind11/morph-pad.hpp: find_match", "api.hpp: FindMatch wrapper"])
p("C++ and Python calls of the probabilistic analyser",
  "Lemmatize(word) delivers one lexeme for each lemma of the word (class, length of stem, weight, dictionary form, descriptions), the greater weight first; an exception in C++, an empty list in Python, when the arrays do not suffice. BuildForm gives the endings of the form number appended to the stem; applied to a delivered lexeme and one of its descriptions it gives the word back. GetModels gives the samples of a class, the heaviest first, as many as have room in 1024 bytes. GetWdInfo gives the part of speech, 0 for no class.",
  "every set of classes, word, settings, sorting routine and content of the uninitialised buffers, both languages",
  "As C39 and C64; it ranges over all classes, words and stack contents.",
  ["api.hpp: IMlfaXX wrappers", "pybind11/morph-pad.hpp: FuzzyAPI"])
p("From source texts to CheckWord: the Russian dictionary recognizes what its sources say",
  "Compile the text of the ending tables (with its includes), the text of the alternation tables and the dictionary files, in this order, and load the images: CheckWord accepts a word if and only if some line of a dictionary file has an article of which the word, in small letters, is a form by what the source texts say (stem + alternant serving the level the description asks for + ending made by lines of the named table and of the tables they go on with + suffix), in a spelling whose capitals the article demands; the file of unknown words has exactly the comments and the lines that make no article, in order. No image, reference or offset appears in the statement.",
  "every file system with the texts, every text of tables within the limits of the format, every list of dictionary files, every word shorter than 48 letters with at most 8 parts, every setting; completeness for words that are not the stem and the suffix of an article with a suffix",
  "It is the composition of three compilers and the run time over unbounded texts; a unit test sees single words of one dictionary.",
  ["lang-rus/libdict/tools/tfc", "lang-rus/libdict/tools/makeich", "lang-rus/libdict/tools/buildic: makerus.cpp, lresolve.cpp, mtables.cpp", "tools/buildmorph.h: CreateDict", "lang-rus/libdict/mlmamain.cpp: CheckWord"])
p("From source texts to Lemmatize: headwords and numbers of the lines come back",
  "With the dictionary compiled as in C68, for every word whose articles have dictionary forms by the sources (of verbs infinitives, of adjectives nominatives masculine, of others nominatives; reflexive ones where there are no others) Lemmatize reports only pairs (number, dictionary form) of articles that have the word as a form in an admitted spelling, the alphabetically first dictionary form when there are several, and misses none: each is reported when no records are asked for, and each number when records are (consecutive readings of one number share a record); the count returned, the numbers in the records and the packed texts agree. The headword of a regular line is a form and a dictionary form of every article of the line; where a table has one ending for a headword it is the only one, so headwords come back.",
  "as C68: every word of articles with dictionary forms (of at most 256 bytes together), no nfAdjVerbs, sufficient buffers; headwords: regular lines (C61), no plural-only masculine noun with alternation",
  "It is a round trip from text through three compilers and the form builder back to text.",
  ["lang-rus/libdict/tools/tfc", "lang-rus/libdict/tools/makeich", "lang-rus/libdict/tools/buildic", "lang-rus/libdict/mlmamain.cpp: Lemmatize", "lang-rus/libdict/lemmatize.cpp"])
p("make-classes: the fuzzy class derived from a lexeme is that of its forms",
  "For a lexeme of an inflected part of speech the class generator asks the dictionary for the form numbers of that part of speech and derives: no class if a required form does not exist, if a form has a hyphen, if there is one form only, or if all forms share fewer than two letters; otherwise the longest common beginning of all forms as the stem, the rests as endings ordered by number and text and each as often as the dictionary builds it (accusatives of nouns doubled, simple future renumbered as present), the last two letters of the stem, the accent scheme by the stated endings, and a form number 0 as the sample. Other parts of speech and unknown ids have no class. Never undefined behaviour.",
  "every dictionary that answers BuildForm as specified (in particular every compiled English and Russian one), every lexeme, every lower-case table, within the tool's array and buffer sizes",
  "It ranges over all dictionaries and all sets of forms; the class decides how every unknown word is analysed.",
  ["lang-rus/libprob/tools/make-classes.cpp: AllForms::Build, Class, Xpand, Renum, LoadDict", "lang-eng/libprob/tools/make-classes.cpp"])
p("make-classes: lexemes are collected into classes without loss",
  "The generator goes through the lexemes of the limits; banned ones and those without a class are left out; those with the same endings and part of speech make one class that counts them, and counts them for every two letters at the end of the stem, with the sample of the last selected lexeme or else of the first. It ends with an exception exactly if two lexemes of one class have different accent schemes.",
  "every dictionary and lower-case table, every list of lexemes, selections and bans",
  "All sequences of insertions; order and duplicates decide the result.",
  ["lang-rus/libprob/tools/make-classes.cpp: LoadDict, ClassVal::Add, ClassMap", "lang-eng/libprob/tools/make-classes.cpp"])
p("make-classes: merging classes loses no lexeme and stops",
  "Merging ends; every class of part of speech 1 has become one that has all its endings, every other class stays; weights, and weights for every two letters, are the sums; samples are samples of merged classes; afterwards no class of part of speech 1 has all endings of another. A class takes up a longest of the classes it covers.",
  "every map of classes the tool can have collected",
  "The loop changes the map it goes through; all maps and orders matter.",
  ["lang-rus/libprob/tools/make-classes.cpp: MergeMap, AllForms::Cover", "lang-eng/libprob/tools/make-classes.cpp: MergeMap"])
p("make-classes: the heaviest classes up to 95 % are printed",
  "The printed classes are the longest beginning of the classes in the order of descending weight whose weight together is not more than 95 % of all lexemes; every printed class is at least as heavy as every class left out; some class is always left out if there is one.",
  "every map of classes and every result of an unstable sort",
  "All weights and all orders among equal weights.",
  ["lang-rus/libprob/tools/make-classes.cpp: main (838-854)", "lang-eng/libprob/tools/make-classes.cpp: main"])
p("make-classes: the description printed is that of the dictionary's lexemes",
  "Without a clash of accents the tool ends with a description in which every class goes with lexemes of the dictionary: every model is the pair of letters at the end of stems of such lexemes, its weight is their number, its sample is the sample of one of them; the lexemes that go with a printed class are at most 95 %, and one class more would exceed 95 %.",
  "every dictionary, list of lexemes, selections, bans, result of the sort",
  "It ranges over whole dictionaries through collection, merging and selection.",
  ["lang-rus/libprob/tools/make-classes.cpp: main, LoadDict, MergeMap", "lang-eng/libprob/tools/make-classes.cpp: main"])
p("The fuzzy analyser with a generated description finds the words it was made from, and guesses only by models",
  "With a generated description, every form of a lexeme that goes with a class is found with its stem, class and form number; Lemmatize reports it and BuildForm of that stem and class gives back exactly the forms of the lexeme (parts of speech other than 1); and whatever is reported for any word is formed like lexemes of the dictionary that have the same two letters at the end of the stem, as many as the weight says.",
  "every dictionary and generated description, every word",
  "All words and all dictionaries, through three programs.",
  ["lang-rus/libprob/tools/make-classes.cpp", "lang-rus/libprob/tools/compile-dict.cpp", "lang-rus/libprob/lemmatizer.hpp", "lang-rus/libprob/buildforms.hpp"])
p("Dictionary text in, lemmas and forms out",
  "With the dictionary compiled from source files, Lemmatize reports for a word one lexeme for every reading over the lines: an article some line stands for and one of its endings, whose letters and capitals fit; BuildForm of the id of a line counts and writes exactly the forms of that line with the given form number.",
  "every set of source files whose articles are within the compiler's limits, every word, settings, buffers, ids and form numbers",
  "It ranges over all dictionaries and words and goes through the compiler and three analysers.",
  ["lang-eng/libdict/buildic/makeeng.cpp: operator()", "tools/sourcefile.h", "lang-eng/libdict/mlmamain.cpp: Lemmatize, BuildForm"])
p("From source texts to BuildForm, FindForms and GetWdInfo",
  "With the dictionary compiled as in C68: BuildForm of a number that a line has gives all forms, each once, that the sources give an article with that number for the form number asked for (stem, alternant of the level asked for, ending with that description, suffix), printed with the capitals it demands, or refuses when they do not fit; of a number no line has it gives nothing; FindForms gives the same for the articles that have the word as a form, and misses none; GetWdInfo gives the part of speech.",
  "as C68: every number below 2^32 (lexeme numbers below 2^24), every form number, word, settings and buffer",
  "It ranges over all source texts and goes through three compilers, the number tree and the form builder.",
  ["lang-rus/libdict/tools/tfc", "lang-rus/libdict/tools/makeich", "lang-rus/libdict/tools/buildic", "lang-rus/libdict/mlmamain.cpp: BuildForm, FindForms, GetWdInfo", "lang-rus/libdict/buildform.cpp"])
p("The written C++ arrays are the images",
  "The C++ file a dictionary compiler writes for an image is a text that a C++ compiler reads as the declaration of exactly one array of bytes, with the given name and in the given namespace, whose values are the bytes of the image in order, however the image was handed over piece by piece; the file of the fuzzy analyser declares the number of classes, the offsets of their records, the records and the tree, all as they are. The license text before it is only a comment. An empty image does not make a text that compiles.",
  "every image of 1 to 2^32-1 bytes, every division into pieces, every name, namespace and comment; every non-empty list of non-empty class records",
  "Line breaks, commas and digits depend on the position and the value of each byte, and on where pieces end; tests see a few images.",
  ["tools/dumppage.h: dumpsource, BinaryDumper", "lang-rus/libdict/tools/buildic/makerus.cpp: SaveTables", "lang-eng/libdict/buildic/makeeng.cpp", "tools/buildmorph.h: CreateDict", "lang-rus/libprob/tools/compile-dict.cpp", "lang-rus/license.h", "lang-eng/license.h"])
p("The control dump and its comparison",
  "The dump of a dictionary has exactly one line, in the order of numbers, for each lexeme number below 0x40000 that has a form; the line shows the number and, for each form number, the first of its forms. The number, form numbers and forms as shown can be read back from a line, but not the forms themselves (how much was cut off is not shown). A dump written to a file is read back line by line however long lines are. Comparing two dumps always ends; it prints nothing if and only if all lines are equal, so a dump compared with the dictionary it was made from prints nothing; otherwise the lines printed are what both lists have beside a common part, in order. The message 'too big' is never printed. Comparing two files whose common lines are not in the same order may never end, and a common line behind 1024 other lines is reported as missing.",
  "every two lists of lines; every dictionary interface, and every compiled Russian dictionary, every lexeme and form number",
  "The comparison is a loop with two windows of 1024 lines over lists of any length; that it ends and what it reports depends on all of them. Tests see a few lists.",
  ["lang-rus/dicdump/dicdump.cpp: Libmorphrus::Get, Cut, Map", "lang-rus/dicdump/dicdump.cpp: DumpedQueue::Get", "lang-rus/dicdump/dicdump.cpp: DumpDict, LoadList, DumpDiff"])
p("The library built from the written files runs on the compiled dictionary",
  "The C++ files a dictionary compiler writes, compiled and linked into the library, give the analyser exactly the arrays the compiler made: each array the run time names is declared exactly once, in the given namespace, with the bytes of the image; for the fuzzy analyser also the offsets and their number. So everything proved about the compiled images holds of the library, from source texts on. A dictionary without articles or without alternation tables makes a file that does not compile.",
  "every dictionary of at least one article (Russian, English), every list of fuzzy classes, every namespace; arrays below 2^32 bytes",
  "It joins the compilers, the text they write and the run time for all dictionaries; a test links one dictionary.",
  ["lang-rus/libdict/tools/buildic/makerus.cpp: SaveTables", "tools/buildmorph.h: CreateDict", "lang-eng/libdict/buildic/makeeng.cpp: Run", "lang-rus/libprob/tools/compile-dict.cpp: main", "lang-rus/libdict/mlmadefs.h: extern arrays", "lang-eng/libdict/mlmadefs.h: extern arrays", "lang-rus/libprob/classtable.hpp"])
p("The list of free lexeme numbers is right",
  "get-holes, run over a dictionary source, names every lexeme number that is used again, the smallest and the largest number in use, and lists the intervals of unused numbers between them: every unused number between the smallest and the largest is in exactly one interval, no used one is, and no interval lies outside. The numbers it sees are those the dictionary compiler gives to the articles.",
  "every file; every set of numbers",
  "The tool works on a bit map with growing size: borders of words of 32 bits, full words, the last word, 32-bit signs; a test sees one set of numbers.",
  ["utils/get-holes.cpp: InsertLexId, GetMinLexId, GetMaxLexId, GetNextHole, PrintLexMap, GetStringLID, GetLexemeMap", "tools/buildmorph.h: DictReader"])
p("A dictionary compiler that is stopped never leaves a wrong dictionary in a clean directory",
  "If the compiler is stopped at any moment while it writes its C++ files into a directory that had none of them (power failure, full disk, kill), so that of every file nothing or some first bytes are on disk, then what is left either does not build into a library or builds into one with exactly the tables of the complete dictionary. With files of an older dictionary in the directory this does not hold: a mixture of old and new files builds, and the library knows words of neither (C82_older_files).",
  "every dictionary the compilers accept (Russian, English, fuzzy), every crash point of every file, independently for each file",
  "There is a crash point after every byte of every file; each remainder would have to be compiled.",
  ["tools/dumppage.h: BinaryDumper, dumpsource", "tools/buildmorph.h: CreateDict", "lang-eng/libdict/buildic/makeeng.cpp: SaveTables", "lang-rus/libdict/tools/buildic/makerus.cpp: SaveTables"])
p("The answers do not depend on the order of the dictionary's lines; a growing dictionary keeps its words",
  "Compile the same dictionary lines (Russian) or articles (Russian, English) in two orders, distributed over source files in any way. The compiled images differ (class numbers, table offsets), but as long as two different lines whose articles have the same stem, suffix and number keep their order, every call of the two libraries - CheckWord, Lemmatize with any buffers, FindForms, BuildForm, GetWdInfo, FindMatch with any template - returns the same result and leaves the same buffers, for every word, number and flags. Adding lines to a dictionary takes no recognized word away.",
  "all dictionaries within the format's limits, all reorderings of their lines, all words with up to 8 parts, all lexeme numbers, buffers, flags; all added lines",
  "There are as many orders as permutations; tests compile one. Independence needs an argument about sorting keys, class sharing and reference renaming for all inputs.",
  ["tools/buildmorph.h: CreateDict, DictReader", "lang-rus/libdict/tools/buildic/makerus.cpp: MapTables, MapLexStem", "lang-eng/libdict/buildic/makeeng.cpp: ClassTable, FlexBox", "tools/wordtree.h: Insert", "xmorph/scandict.h: ScanList"])
p("The Russian dictionary in another code page answers as in code page 1251",
  "The library object for another code page (UTF-8, 866, KOI-8 ...) gives the answers of the object for code page 1251, converted. CheckWord accepts the same words; Lemmatize returns the same number of analyses with the same lexeme numbers, parts of speech and form descriptions, and the same lemma texts converted; BuildForm and FindForms return the same number and the converted texts in the same order. Where the converted texts do not fit the caller's buffer the call answers LEMMBUFF_FAILED and nothing beyond the buffer is written. A word of 48 letters or more is refused as in 1251. FindMatch finds the same words under the same numbers, but the template has to be shorter than 48 bytes in that page: longer ones are refused although they have fewer letters.",
  "all dictionary images, also damaged ones; all conversions that map every letter to a text, do not map two letters to the same text and convert letter by letter; all words, lexeme numbers, form numbers, flags, buffers of any size, templates",
  "Words, images and buffer sizes are unbounded; the conversion of every letter in every buffer position has to be considered, and tests on one code page say nothing about the others.",
  ["xmorph/codepages.hpp: MbcsCoder, ToCodepage", "lang-rus/libdict/mlmamain.cpp: CMlmaMb, codepageList", "lang-rus/libdict/buildform.cpp: FormBuild", "lang-rus/libdict/lemmatize.cpp"])
p("The lemmatize tool prints the lemmas of a word as JSON",
  "`lemmatize library function[:codepage] word` prints a JSON array with one object per analysis the library returns: the dictionary form in that code page, the lexeme number, the part of speech and the form numbers of the analysis, and exits with status 0. When 16 records, 256 bytes and 64 descriptions do not suffice it prints an empty array, also with status 0. Without a code page UTF-8 is taken. It fails with a message and a non-zero status when the arguments, the library or the function are missing. The full claim is false: dictionary forms with a quotation mark are not escaped so the output is no JSON text; the failure status is the length of the message modulo 256, so 0 for a path of 223 characters; the code page `utf-16` passes the wide object to the byte interface.",
  "all dictionaries the compilers produce, Russian and English; all words within the limits of the library; all code pages meeting the conversion contract; all contents of the uninitialised buffers; all command lines",
  "The words and dictionaries are unbounded, and whether an output is well formed JSON for all of them cannot be sampled; the failing paths depend on the length of an arbitrary argument.",
  ["utils/lemmatize.cpp: lemmatize, main", "xmorph/codepages.hpp", "api.hpp: IMlmaMb::Lemmatize"])
p("The stematize tool prints the guesses for a word as JSON",
  "`stematize library function[:codepage] word` prints a JSON array with one object per guess of the probabilistic analyser: the dictionary form, the score, the class, the part of speech and the form numbers, best score first, with status 0. The full claim is false: the dictionary form is made from the word and a quotation mark in it is not escaped, so for such words the output is no JSON text.",
  "all images of the probabilistic dictionary; all words; all contents of the uninitialised buffers; all printed forms of the scores meeting the contract of printf",
  "Words and images are unbounded; a test shows the output for its own words only.",
  ["utils/stematize.cpp: stematize, main", "lang-rus/libprob/mlfamain.cpp"])
p("The fuzzy analyser answers in every code page as in 1251",
  "An object of the Russian or English fuzzy analyser opened for a code page other than 1251 gives for a converted word the guesses the 1251 object gives for the word: the same classes, weights and grammatical descriptions in the same order, the lemmas converted, and as the length of the stem the number of bytes the stem takes in that code page, so that the stem can be cut out of the lemma and passed to BuildForm, which gives the same forms, converted. GetModels gives the same samples, converted. The full claim is false: without a buffer for the lemmas the length of the stem in UTF-8 is counted in letters; GetModels runs past the end of the buffer when a sample fills it to the last byte.",
  "all fuzzy dictionary images, well formed or not, for Lemmatize and BuildForm; all words of known characters, below 256 characters or above; all code pages meeting the conversion contract; all buffers and sizes, options, weights and sorting functions",
  "The conversion may change every length, and the results are pointers and lengths into a buffer whose layout depends on all lemmas before; a unit test sees one word, one page and one size.",
  ["lang-rus/libprob/mlfamain.cpp: CMlfaMb, ToCanonic, Lemmatize, BuildForm, GetModels", "lang-rus/libprob/lemmatizer.hpp: operator(), operator int", "lang-rus/libprob/buildforms.hpp", "xmorph/codepages.hpp: MbcsCoder"])
p("The classes make-classes prints are the classes compile-dict reads",
  "The text make-classes writes for a set of classes, read by compile-dict through a JSON reader that tolerates a comma before a closing bracket, gives exactly the same classes: part of speech, accent scheme, endings with their form numbers, models with letters, weight and sample, in the same order, converted to UTF-8 and back; so running the two tools one after another builds the fuzzy dictionary of the classes that were found. The full claim is false: the text is not JSON (behind the last class there is always a comma), an ending of more than 30 letters makes compile-dict refuse the whole file, quotation marks are not escaped, and when there is no class the text is JSON but refused.",
  "all class maps with printable texts and 31-bit counters; all dictionaries, marks, limits and sorting functions; all conversions with an inverse, in particular UTF-8; any hand-written file for the faults",
  "The number of classes, models and endings is unbounded and the two programs meet only in a text; a unit test sees one file.",
  ["lang-rus/libprob/tools/make-classes.cpp: main (859-912)", "lang-eng/libprob/tools/make-classes.cpp: main (582-637)", "lang-rus/libprob/tools/compile-dict.cpp: Get1251Str, main (184-273)"])
p("The marks of lexemes for make-classes do what they say",
  "A line of a marked dictionary file that contains \"---\" takes the lexeme whose number follows its first \"LID:\" out of the derivation of classes, one that contains \"+++\" (and no \"---\") makes its lexeme a sample; banned lexemes influence nothing, as if they were not in the dictionary; the files of the command line count together in any order. A file that cannot be opened ends the program. The full claim is false: a line of 1023 bytes or more is seen in pieces, so that a mark can be lost without a message, and the exit status for a file that cannot be opened is the length of the message modulo 256, which is 0, success, for a path of 228 bytes.",
  "all files, lines, numbers below 2^64, dictionaries and lists of files",
  "Lines and files are unbounded, and that a banned lexeme influences nothing speaks about all dictionaries.",
  ["lang-rus/libprob/tools/make-classes.cpp: GetBestSamples (649-684), LoadDict, main (807-822)"])
p("Lemmatize with buffers of any size",
  "For every choice of buffers of Lemmatize, supplied or not, of any size and content, how the call ends follows from the sizes and the readings of the word alone: it answers with the right records, dictionary forms and descriptions, or returns a code that blames a buffer without room, or - only when records and descriptions are both asked for, some reading continues the lexeme of the reading before it and the record buffer is not larger than the answer - writes behind the record buffer. Larger buffers never turn an answer into a failure; one record more than the answer makes the call defined whatever the other sizes; the C++ wrapper (32 records, 64 descriptions, 256 bytes) and the Python class (32, 512, 2048) answer accordingly for every word. Words of less than 48 bytes and at most 8 parts; a dictionary form for each reading where a text buffer is supplied (C44).",
  "all compiled dictionaries of both languages, words, options, buffers and buffer sizes",
  "The outcome depends on the product of buffer sizes, dictionaries and words; the write behind the buffer occurs only at one size out of all.",
  ["lang-rus/libdict/lemmatize.cpp: Lemmatizer::operator() (91-178)", "lang-eng/libdict/mlmamain.cpp: Lemmatize", "api.hpp: Lemmatize (196-260)", "pybind11/morph-pad.hpp: MorphAPI::Lemmatize"])
p("The game of five letters over FindMatch and GetWdInfo",
  "Let the Russian dictionary be loaded in wide characters, with nouns written in the letters from а to я. (1) A question of the game - a template of five small letters and question marks, a set of excluded and a set of required letters - put to FindMatch and GetWdInfo is answered by exactly the nouns of five letters in the nominative singular or uninflected that fit the template, have no excluded and every required letter. (2) For every sample, template and excluded letters, and every source that answers so, the game ends, tries no word twice, tries words of the source only, shows for each guess the right letter, a plus or a minus in each place, and finds the sample exactly if it is a word of the source that fits the template and the first question has an answer. (3) The program as shipped does none of this: the name it gives to mlmaruGetAPI lacks the prefix and its pointer stays null; and its sample does not fit its template. A word with ё or a hyphen would make a shift out of range.",
  "all compiled Russian dictionaries within the limits, all samples, templates, sets of letters, and all histories of guesses",
  "That the game ends and never loses a sample it could find is a statement about all histories of questions and answers; that the questions are answered exactly ranges over all dictionaries.",
  ["lang-rus/libdict/utils/5-letters.cpp: IsExcluded, IsIncluded, MakeMask, GetWordset, CheckWord, GetWordRank, main", "lang-rus/libdict/utils/5-samples.cpp: charRank", "lang-rus/libdict/mlmawide.hpp: FindMatch", "lang-rus/libdict/utils/wildcards.cpp: main"])
p("The programs benchmark and wildcards",
  "(1) For every text, benchmark breaks it into exactly the stretches of two and more letters (Latin letters and bytes from 128) with no letter before or behind, in their order, and reports a hundred times their number and a hundred times the number of those counted as known: the forms of the dictionary in any spelling with capitals (words not at risk because of a suffix, C43) and - wrongly - every word of 48 bytes and more, which the dictionary refuses; whatever was on the stack. When no millisecond has passed its behaviour is undefined. (2) With the options as documented benchmark never measures anything: the colon between prefix and code page is missing, the library refuses; with two colons it works. (3) wildcards, given an object, prints for each template of its input, in turn, one form of every lexeme that has a form fitting the template, in the code page of the object; as shipped it calls a null pointer for the first line that is not empty.",
  "all texts, dictionaries, stack contents, running times; all command lines; all lists of templates",
  "Texts, dictionaries and command lines are unbounded; that a count is right for every text cannot be settled by runs.",
  ["utils/benchmark.cpp: is_alpha_extended, GetWords, Benchmark, main", "lang-rus/libdict/utils/wildcards.cpp: main", "lang-rus/libdict/mlmamain.cpp: CMlmaMb<codepage>::FindMatch"])
p("The table of weights made of a text",
  "For every text, every compiled dictionary and whatever lies on the stack, make-psp-tab looks up exactly the words of the text (Russian: from a letter behind the capital A on, letters and hyphens; English: letters, hyphens, apostrophes; four bytes and more), gives every counted lexeme of a word an equal share of the word and every form of a lexeme an equal share of the lexeme, and prints the table of these shares: as many rows as the last part of speech needs, each as long as its last form needs, the weights of the rows sum to 1, the numbers of each row that has any sum to 1, none is negative, no number is divided by 0. Words of 48 bytes and more, and words for which 32 lexemes or 64 descriptions do not suffice, are passed over (or make the program undefined, C90). The fuzzy library can look up every part of speech and form a lexeme of the text was counted for. False: that the table serves every part of speech of the text - Russian counts 2 to 6 as 1, 8 and 9 as 7 and so on, while the library looks up the original number, finds nothing or reads behind the table; and that the text is C++ - a row of 256 numbers is declared with none.",
  "all texts, dictionaries, stack contents, formats of numbers",
  "The proportions must come out for every text; the sums, bounds and divisions depend on all its words together.",
  ["lang-rus/libprob/tools/make-psp-tab.cpp: Accumulate, DumpRanges, DumpMatrix, main", "lang-eng/libprob/tools/make-psp-tab.cpp: Accumulate, DumpRanges, DumpMatrix, main", "lang-rus/libprob/lemmatizer.hpp: Lemmatizer::operator()"])
p("The compilers as programs: arguments, files, exit status",
  "For every command line and every state of the disk, tfc, makeich, makerus and makeeng do what their arguments say. tfc and makeich: with three names and known switches, in any order, the source is compiled (the last -lang: counts; -w of makeich chooses code page 1251) and the image and the index are written, status 0; with fewer names, an unknown switch, a source that cannot be compiled or a file that cannot be created the status is 255, and no file has changed but, if only the index cannot be created, the image. makerus: an unknown switch, a switch given again, a missing table, no dictionary or a missing one end it with 14; only the file of unknown words and the six files in the target directory can ever change. makeeng the same with four files, but an error aborts it. Called one after the other on the sources of C68, tfc, makeich and makerus leave six files that, compiled and linked, are exactly the library of these sources, and the unknown lines in their file; makeeng leaves the library of the articles of its dictionaries. The Ukrainian words of tfc mean what the Russian words for them mean. False: that -w of tfc has an effect, that -codepage of makerus has one, that @options_pack is read, that arguments behind a fourth name are looked at.",
  "all command lines, disks, sources, formats of index files and conversions",
  "The switches may come in any order and number, and what must not change are all other files; that the three programs fit together ranges over all sources.",
  ["utils/tfc/tfc.cpp: main", "utils/tfc/gramap.cpp: InitUkr", "lang-rus/libdict/tools/makeich/makeich.cpp: main", "lang-rus/libdict/tools/buildic/makerus.cpp: GetSwitch, Run, SaveTables, main", "lang-eng/libdict/buildic/makeeng.cpp: GetSwitch, Run, main", "tools/buildmorph.h: CreateDict, DictReader, PutUnknown", "tools/dumppage.h: OpenFile", "tools/sweets.h: LoadSource, LoadObject"])
p("make-classes, compile-dict and dicdump as programs: arguments, files, exit status",
  "For every command line and every state of the disk: compile-dict, with two names and any number of -ns=, -nspace= switches in any order, reads the classes of the first file and writes the second, which, compiled and linked under the namespace of the last switch, gives the fuzzy analyser exactly the images of these classes, and cannot be linked under any other namespace; an unknown switch or a third name ends it with 22, fewer names with 0, a missing source with 2, a refused one with 22, a class without its texts or a file that cannot be created with an exception; no file ever changes but the output, and that one only with status 0. The text make-classes prints under the marks in its files, saved and given to compile-dict, makes the analyser of the classes of the dictionary, if there is one and no ending is longer than 30 bytes; otherwise compile-dict refuses it. dicdump build prints the lines of all lexemes; dicdump check, given a file that build printed, ends with 0 and prints nothing if and only if both dictionaries have the same lines; a missing file or another word ends it with 22. False: that without -ns the file can be linked with the libraries (the default is the name of a macro that nothing defines); that the usage is printed when the program is called by a name without '/' (undefined).",
  "all command lines, disks, files of classes, marks, dictionaries and trees",
  "The arguments may come in any order and number, what must not change are all other files, and that the programs fit together ranges over all dictionaries.",
  ["lang-rus/libprob/tools/compile-dict.cpp: main", "lang-eng/libprob/tools/compile-dict.cpp: main", "lang-rus/libprob/tools/make-classes.cpp: main", "lang-rus/dicdump/dicdump.cpp: main", "lang-rus/libprob/CMakeLists.txt: LIBMORPH_NAMESPACE"])
p("A call is answered the same whatever was called before, by whomever",
  "For every compiled dictionary, Russian or English, and every history of calls of CheckWord, Lemmatize, FindForms, BuildForm, GetWdInfo and FindMatch by any number of callers in any interleaving (other threads, or callbacks of FindMatch): each caller gets, call for call, the values and buffers it would get if it made its calls alone, whatever earlier calls left in the memory the calls use without initialising it. False for the probabilistic analyser: what the stack holds decides whether Lemmatize answers or reads behind its array.",
  "all dictionaries within the limits of C43/C41 and C30, all histories and interleavings of calls, all contents of uninitialised local arrays and of the memory behind the dictionary, all arguments and buffers, words of at most eight parts",
  "A test runs one history on one stack; the property compares all interleavings and all contents of uninitialised memory",
  ["lang-rus/libdict/mlmamain.cpp: CMlmaMb::CheckWord, Lemmatize, FindForms, BuildForm, GetWdInfo, FindMatch", "lang-eng/libdict/mlmamain.cpp: the same", "lang-rus/libprob/lemmatizer.hpp: szform"])
p("From the source texts to FindMatch",
  "With a Russian dictionary compiled from source texts (tables of endings, tables of alternations, dictionary lines), FindMatch tells the client, for every template, only what the texts say: each match fits the template and is a form, with its number, of an article of some line with that lexeme number; and every such form that fits the template is reported (but for words that are just stem and suffix of an article with a suffix). The search is defined at least when the template has no asterisk but at its end, numbers are unique and no article has more than 512 readings; the client is then called once for a lexeme. With an English dictionary compiled from texts the search is always defined, and it reports what fits and what some line gives in the same way.",
  "all source texts within the limits of the format, all templates, clients, contents of the stack",
  "texts, tables and templates are unbounded; a test fixes one dictionary and a few templates",
  ["lang-rus/libdict/mlmamain.cpp: FindMatch", "lang-rus/libdict/wildClass.hpp", "lang-rus/libdict/tools/buildic/makerus.cpp", "lang-rus/libdict/tools/makeich/makeich.cpp", "utils/tfc/tfc.cpp"])
p("Counting the known words of a text",
  "The speed script takes from a text its words, the longest runs of Russian letters, all of them and nothing else, and reports their number and the number of those of more than one letter that are a form of a dictionary article, whatever the capitals, or for which the guesser has a lemma. When the file is missing or the text has no Russian word, it prints nothing at all: its messages are returned, and the result of the call is not looked at.",
  "all texts, dictionaries, sets of guesser classes, contents of the buffers, code page conversions that are right (UTF-8 is)",
  "texts and dictionaries are unbounded",
  ["pyrusmorph/speed/pyrusmorph-speed.py: benchmark_libmorph", "pyrusmorph/pyrusmorph.cpp: mlmaruWc::Lemmatize, mlfaruWc::Lemmatize"])
open('/verif/properties.jsonl','w').write(''.join(json.dumps(x,ensure_ascii=False)+'\n' for x in P))
print(len(P))
