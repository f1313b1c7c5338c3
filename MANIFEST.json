{
 "claims": [
  {
   "property": "C01",
   "status": "proved",
   "theorems": [
    "Libmorph.C01_numbers_read_back",
    "Libmorph.C01_prefix_free"
   ],
   "note": "All 32-bit numbers and 16-bit words, any following bytes."
  },
  {
   "property": "C02",
   "status": "partial",
   "theorems": [
    "Libmorph.C02_keys_distinct",
    "Libmorph.C02_shared_key_partial",
    "Libmorph.C02_counterexample"
   ],
   "note": "Proved for ids below 2^24; for larger ids the code is wrong (lexkeybuf stores three bytes): C02_counterexample."
  },
  {
   "property": "C03",
   "status": "proved",
   "theorems": [
    "Libmorph.C03_tree_is_map",
    "Libmorph.C03_entries"
   ],
   "note": "All insertion histories."
  },
  {
   "property": "C04",
   "status": "proved",
   "theorems": [
    "Libmorph.C04_size",
    "Libmorph.C04_subtree_size",
    "Libmorph.C04_dictionary"
   ],
   "note": "All trees, whole and every subtree."
  },
  {
   "property": "C05",
   "status": "proved",
   "theorems": [
    "Libmorph.C05_lookup",
    "Libmorph.C05_machine",
    "Libmorph.C05_dictionary"
   ],
   "note": "All histories, words shorter than 64 bytes; the recursion of the model is proved equal to the code's stack machine."
  },
  {
   "property": "C06",
   "status": "proved",
   "theorems": [
    "Libmorph.C06_defined"
   ],
   "note": "Provided the collector called has a defined outcome."
  },
  {
   "property": "C07",
   "status": "partial",
   "theorems": [
    "Libmorph.C07_lid_lookup_partial",
    "Libmorph.C07_counterexample"
   ],
   "note": "Proved for dictionaries whose ids are below 2^24; false above (C07_counterexample, same cause as C02)."
  },
  {
   "property": "C08",
   "status": "proved",
   "theorems": [
    "Libmorph.C08_position_leads_back",
    "Libmorph.C08_by_id"
   ],
   "note": "All dictionaries, all entries."
  },
  {
   "property": "C09",
   "status": "proved",
   "theorems": [
    "Libmorph.C09_entry_read_back",
    "Libmorph.C09_class_limit"
   ],
   "note": "All entries within the format limits; C09_class_limit shows the class limit is real."
  },
  {
   "property": "C10",
   "status": "partial",
   "theorems": [
    "Libmorph.C10_pruning_partial",
    "Libmorph.C10_no_suffix",
    "Libmorph.C10_sound",
    "Libmorph.C10_safe_is_exact",
    "Libmorph.C10_counterexample"
   ],
   "note": "Proved except when the whole rest of the word is a suffix and an entry with a lower bound precedes; there the code loses entries (C10_counterexample); the condition is exact (C10_safe_is_exact)."
  },
  {
   "property": "C11",
   "status": "partial",
   "theorems": [
    "Libmorph.C11_agree",
    "Libmorph.C11_not_found",
    "Libmorph.C11_buffers_partial",
    "Libmorph.C11_counterexample"
   ],
   "note": "Without buffers: any images, any word, any settings (C11_agree, C11_not_found). With buffers: compiled dictionaries with distinct lexemes that have forms numbered below 16; false otherwise (C11_counterexample)."
  },
  {
   "property": "C12",
   "status": "proved",
   "theorems": [
    "Libmorph.C12_ignoring_adds",
    "Libmorph.C12_rus_ignoring_adds"
   ],
   "note": "All English dictionaries and (C12_rus_*) all Russian ones, all words, all scratch contents."
  },
  {
   "property": "C13",
   "status": "partial",
   "theorems": [
    "Libmorph.C13_case_irrelevant_partial",
    "Libmorph.C13_counterexample",
    "Libmorph.C13_rus_case_irrelevant_partial",
    "Libmorph.C13_rus_counterexample"
   ],
   "note": "Words of at most 8 parts; false beyond (C13_counterexample, C13_rus_counterexample). English and Russian."
  },
  {
   "property": "C14",
   "status": "partial",
   "theorems": [
    "Libmorph.C14_empty",
    "Libmorph.C14_too_long_partial",
    "Libmorph.C14_too_long_never_found",
    "Libmorph.C14_ill_formed",
    "Libmorph.C14_rus_empty",
    "Libmorph.C14_rus_too_long_partial",
    "Libmorph.C14_rus_too_long_never_found",
    "Libmorph.C14_rus_ill_formed"
   ],
   "note": "Empty words, words of 48 bytes and more, ill-formed parts; too-long words: code -4 when at most 16 parts (beyond: the code writes out of bounds), never found in any case. English and Russian."
  },
  {
   "property": "C15",
   "status": "partial",
   "theorems": [
    "Libmorph.C15_classification_partial",
    "Libmorph.C15_kind_of_part",
    "Libmorph.C15_too_long",
    "Libmorph.C15_many_parts",
    "Libmorph.C15_counterexample_trailing",
    "Libmorph.C15_counterexample_many",
    "Libmorph.C15_counterexample_length",
    "Libmorph.C15_counterexample_shift"
   ],
   "note": "Exact for words of up to 4 parts without a trailing hyphen; five to sixteen parts: lower-cased copy right, never accepted; counterexamples for trailing hyphen, 5, 9 and 17 parts."
  },
  {
   "property": "C16",
   "status": "proved",
   "theorems": [
    "Libmorph.C16_only_case",
    "Libmorph.C16_same_letters",
    "Libmorph.C16_parts"
   ],
   "note": "All zero-terminated strings, both languages' tables, any bytes after the terminator."
  },
  {
   "property": "C17",
   "status": "partial",
   "theorems": [
    "Libmorph.C17_printed_is_accepted_partial",
    "Libmorph.C17_four_parts",
    "Libmorph.C17_counterexample_one_letter",
    "Libmorph.C17_counterexample_apostrophe"
   ],
   "note": "Up to three parts of letters with capitals; counterexamples for four parts, one-letter parts, apostrophe."
  },
  {
   "property": "C18",
   "status": "proved",
   "theorems": [
    "Libmorph.C18_monotone"
   ],
   "note": "All schemes and demands."
  },
  {
   "property": "C19",
   "status": "partial",
   "theorems": [
    "Libmorph.C19_buildForm",
    "Libmorph.C19_findForms",
    "Libmorph.C19_lemmatize_partial",
    "Libmorph.C19_counterexample",
    "Libmorph.C19_rus_buildForm",
    "Libmorph.C19_rus_findForms",
    "Libmorph.C19_rus_lemmatize_partial",
    "Libmorph.C19_lemmatize_repeats_partial"
   ],
   "note": "BuildForm, FindForms: all ids, form numbers, words of up to 8 parts (or too long), all buffer sizes, both languages (C19_rus_*). Lemmatize, both languages: when no lexeme matches twice, or the record array is longer than the number of readings, or records or descriptions are not asked for; false otherwise (C19_counterexample)."
  },
  {
   "property": "C20",
   "status": "proved",
   "theorems": [
    "Libmorph.C20_split",
    "Libmorph.C20_buildForm",
    "Libmorph.C20_findForms",
    "Libmorph.C20_english",
    "Libmorph.C20_russian"
   ],
   "note": "C20_split: the split round trip for all strings. C20_english, C20_russian: a buffer of any size and content after an answer n > 0, BuildForm and FindForms of both languages. C20_buildForm, C20_findForms: the C++ wrappers with their 256 bytes."
  },
  {
   "property": "C21",
   "status": "partial",
   "theorems": [
    "Libmorph.C21_exact_partial",
    "Libmorph.C21_counterexample"
   ],
   "note": "Exact border when the forms fit the library's own 256 bytes; beyond, always refused (C21_counterexample)."
  },
  {
   "property": "C22",
   "status": "partial",
   "theorems": [
    "Libmorph.C22_forms_partial",
    "Libmorph.C22_counterexample"
   ],
   "note": "English. All articles except uninflected ones with a suffix, which are built without it (C22_counterexample)."
  },
  {
   "property": "C23",
   "status": "proved",
   "theorems": [
    "Libmorph.C23_exact",
    "Libmorph.C23_limits"
   ],
   "note": "All ending strings within the format limits; C23_limits shows the limits are real."
  },
  {
   "property": "C24",
   "status": "partial",
   "theorems": [
    "Libmorph.C24_recognized_partial",
    "Libmorph.C24_lemmatized_partial",
    "Libmorph.C24_counterexample"
   ],
   "note": "English; exceptions listed at the theorem, with counterexamples."
  },
  {
   "property": "C25",
   "status": "proved",
   "theorems": [
    "Libmorph.C25_arguments",
    "Libmorph.C25_unknown_id"
   ],
   "note": "English, all dictionaries within limits, all ids."
  },
  {
   "property": "C26",
   "status": "proved",
   "theorems": [
    "Libmorph.C26_part_of_speech"
   ],
   "note": "English, all dictionaries within limits."
  },
  {
   "property": "C27",
   "status": "partial",
   "theorems": [
    "Libmorph.C27_verb",
    "Libmorph.C27_adjective",
    "Libmorph.C27_noun",
    "Libmorph.C27_verb_ids",
    "Libmorph.C27_noun_ids_partial",
    "Libmorph.C27_adjective_ids_partial",
    "Libmorph.C27_printed_id_selects",
    "Libmorph.C27_counterexample_noun",
    "Libmorph.C27_counterexample_adjective",
    "Libmorph.C27_adjective_aliases"
   ],
   "note": "Both directions for every form of every part of speech; every verb id below 234, noun id (except 9) and adjective id below 66 belongs to exactly one form. False for noun id 9 and adjective ids from 66 (C27_counterexample_*, C27_adjective_aliases)."
  },
  {
   "property": "C28",
   "status": "proved",
   "theorems": [
    "Libmorph.C28_alternants_exact",
    "Libmorph.C28_levels",
    "Libmorph.C28_filter"
   ],
   "note": "For tables made by interchange::addstep/Serialize from any list of (alternant, level): exact alternants, order, rest and powers; C28_filter ties the powers to the level a form needs, C28_levels bounds the level."
  },
  {
   "property": "C29",
   "status": "proved",
   "theorems": [
    "Libmorph.C29_lookup_exact"
   ],
   "note": "Over the whole chain compact table -> FlexTree::CreateTree -> image -> ScanTables: the descriptions the compact table gives the ending (inductive Spec.Ending), filtered, each once. Within the format limits Spec.FlexOk (fewer than 128 letters, at most 64 descriptions per ending)."
  },
  {
   "property": "C30",
   "status": "proved",
   "theorems": [
    "Libmorph.C30_sound",
    "Libmorph.C30_argument",
    "Libmorph.C30_rus_sound",
    "Libmorph.C30_rus_argument"
   ],
   "note": "English FindMatch, from compiled image to the calls of the client (C30_sound, C30_argument): every reported form matches the template in small letters (Spec.WildMatch) and is a form with that number of an article with that id (an uninflected word without its suffix, C31_plain_suffix). Hypotheses: limits of the format (EngOk), WildOk (texts shorter than 48 bytes without wildcards, ids not 0, at most 256 forms per id), one readable byte behind the image (needed: C31_undefined). Russian likewise: C30_rus_sound, C30_rus_argument, under RusOk and RusWildOk (met by the sample, rusSample_wild), whenever the search is defined; it is defined when only the last character of the template is an asterisk (C31_rus_exact_partial)."
  },
  {
   "property": "C31",
   "status": "partial",
   "theorems": [
    "Libmorph.C31_exact_partial",
    "Libmorph.C31_complete_partial",
    "Libmorph.C31_reported_twice",
    "Libmorph.C31_counterexample",
    "Libmorph.C31_plain_suffix",
    "Libmorph.C31_undefined",
    "Libmorph.C31_rus_exact_partial",
    "Libmorph.C31_rus_complete_partial",
    "Libmorph.C31_rus_reported_twice",
    "Libmorph.C31_rus_overflow",
    "Libmorph.C31_rus_plain_suffix",
    "Libmorph.C31_rus_counterexample",
    "Libmorph.C31_rus_undefined"
   ],
   "note": "English FindMatch: C31_exact_partial says exactly which forms are reported (iff), call structure and answer; C31_complete_partial the forms with a non-empty ending or without suffix. As stated the property is false: C31_counterexample (\"in-law\" with empty ending and suffix is pruned by the first-letter bounds), C31_plain_suffix. With several asterisks the same lexeme is reported several times (C31_reported_twice); with no asterisk but the last, once. Russian: C31_rus_exact_partial (exact outcome whenever defined; defined, without duplicates and with one call per lexeme when only the last character may be an asterisk), C31_rus_complete_partial. Negative: C31_rus_overflow (a template of six asterisks overflows the room for 512 matches: undefined behaviour), C31_rus_reported_twice, C31_rus_counterexample, C31_rus_plain_suffix, C31_rus_undefined."
  },
  {
   "property": "C32",
   "status": "proved",
   "theorems": [
    "Libmorph.C32_known",
    "Libmorph.C32_unambiguous",
    "Libmorph.C32_unknown",
    "Libmorph.C32_refused",
    "Libmorph.C32_null_target",
    "Libmorph.C32_english",
    "Libmorph.C32_load_codepage",
    "Libmorph.C32_load_refused",
    "Libmorph.C32_fuzzy_load",
    "Libmorph.C32_counterexample"
   ],
   "note": "All code-page names, both languages. For the fuzzy library the claim is false: C32_counterexample (LoadCp hands out the wide interface)."
  },
  {
   "property": "C33",
   "status": "partial",
   "theorems": [
    "Libmorph.C33_balanced",
    "Libmorph.C33_all_released",
    "Libmorph.C33_no_use_after_release_partial",
    "Libmorph.C33_counterexample",
    "Libmorph.C33_load_proviso_needed"
   ],
   "note": "All histories of holders; use after release excluded except self-assignment of the last holder (C33_counterexample)."
  },
  {
   "property": "C34",
   "status": "proved",
   "theorems": [
    "Libmorph.C34_english",
    "Libmorph.C34_generic"
   ],
   "note": "English and generic class table, all histories."
  },
  {
   "property": "C35",
   "status": "proved",
   "theorems": [
    "Libmorph.C35_order_independent",
    "Libmorph.C35_proviso_needed"
   ],
   "note": "All permutations, when entries with equal comparison keys are equal; C35_proviso_needed shows why."
  },
  {
   "property": "C36",
   "status": "proved",
   "theorems": [
    "Libmorph.C36_members",
    "Libmorph.C36_order"
   ],
   "note": "All insertion histories. The header is not included by any other file of the repository."
  },
  {
   "property": "C37",
   "status": "partial",
   "theorems": [
    "Libmorph.C37_counterexample",
    "Libmorph.C37_lemmatize_partial",
    "Libmorph.C37_records",
    "Libmorph.C37_counted_once"
   ],
   "note": "General report of Lemmatize with readings of one lexeme in a row sharing a record: which descriptions are counted, which are written behind and lost, exact buffers (C37_lemmatize_partial, C37_records, C37_counted_once). The claim that all descriptions of the merged readings are reported is false (C37_counterexample)."
  },
  {
   "property": "C38",
   "status": "partial",
   "theorems": [
    "Libmorph.C38_visits_partial",
    "Libmorph.C38_exact_partial",
    "Libmorph.C38_once",
    "Libmorph.C38_reads_before"
   ],
   "note": "Both languages (same code). From the source classes through the reverse dictionary image to the calls of the collector: C38_visits_partial (exact order), C38_exact_partial (membership iff), C38_once (multiplicity). Partial only because the scan may read the byte before the array with the word (C38_reads_before, undefined behaviour strictly); the theorems take one readable byte there, of any value. The external mtc::patricia writer is a contract: PTree.WF and PTree.Holds (met by the sample)."
  },
  {
   "property": "C39",
   "status": "partial",
   "theorems": [
    "Libmorph.C39_report_partial",
    "Libmorph.C39_refused_partial",
    "Libmorph.C39_lemma_iff",
    "Libmorph.C39_refs",
    "Libmorph.C39_distinct",
    "Libmorph.C39_junk",
    "Libmorph.C39_long_ending",
    "Libmorph.C39_too_long",
    "Libmorph.C39_nine_parts"
   ],
   "note": "C39_report_partial: count, permutation of the lemmas, descending weight, pointers show the texts and descriptions; C39_refused_partial: errors leave the array as it was; C39_lemma_iff, C39_refs, C39_distinct say what the lemmas are. C39_too_long: words of 256 bytes or more are refused. Beyond 8 parts the claim is false (C39_nine_parts). Limits of the theorem: FuzzyOk, outside which tables are overrun (C39_long_ending); Russian: the uninitialized array szform must contain an end of word (C39_junk). The floating-point weight is an arbitrary function into a linear order; std::sort is any function that returns a sorted permutation."
  },
  {
   "property": "C40",
   "status": "partial",
   "theorems": [
    "Libmorph.C40_check",
    "Libmorph.C40_rus_check",
    "Libmorph.C40_lemmatize_partial",
    "Libmorph.C40_rus_lemmatize_partial",
    "Libmorph.C40_buildForm",
    "Libmorph.C40_rus_buildForm",
    "Libmorph.C40_findForms",
    "Libmorph.C40_rus_findForms",
    "Libmorph.C40_findMatch",
    "Libmorph.C40_rus_findMatch",
    "Libmorph.C40_arguments",
    "Libmorph.C40_findForms_never",
    "Libmorph.C40_counterexample",
    "Libmorph.C40_form_counterexample"
   ],
   "note": "CheckWord, BuildForm, FindForms, FindMatch exact for both languages over a codec contract (Codec.Ok: byte by byte conversion that succeeds when there is room and the text has no zero inside). Lemmatize is partial: mirrors the byte interface only when the internal limits (32 lemmas, 240 bytes of text) suffice; C40_counterexample shows a word lost to them; C40_form_counterexample a form lost by BuildForm; C40_findForms_never: a counted call never succeeds with a codec that needs a terminator."
  },
  {
   "property": "C41",
   "status": "partial",
   "theorems": [
    "Libmorph.C41_sound",
    "Libmorph.C41_found_partial",
    "Libmorph.C41_counterexample",
    "Libmorph.C41_lemmas_partial",
    "Libmorph.C41_matches"
   ],
   "note": "Soundness for all dictionaries and words; completeness when no form is at risk; counterexample otherwise."
  },
  {
   "property": "C42",
   "status": "proved",
   "theorems": [
    "Libmorph.C42_find_forms"
   ],
   "note": "All dictionaries, words of up to 8 parts."
  },
  {
   "property": "C43",
   "status": "partial",
   "theorems": [
    "Libmorph.C43_check_exact_partial",
    "Libmorph.C43_check_sound",
    "Libmorph.C43_check_no_suffix",
    "Libmorph.C43_check_pure",
    "Libmorph.C43_counterexample"
   ],
   "note": "Whole chain: compact tables, alternation tables and articles -> rusBuild -> images -> rusCheck. Exact for words not at risk because of a suffix (C43_check_no_suffix: dictionaries without suffixes, unconditional); sound always; the full statement is refuted by C43_counterexample (LookupList stops at a non-matching suffix entry)."
  },
  {
   "property": "C44",
   "status": "partial",
   "theorems": [
    "Libmorph.C44_lemmatize_partial",
    "Libmorph.C44_least",
    "Libmorph.C44_joined_adds",
    "Libmorph.C44_no_dictionary_form",
    "Libmorph.C44_lost_description",
    "Libmorph.C44_preposition_number"
   ],
   "note": "The report of Lemmatize for every word: readings (C43), records, least dictionary form with capitals, descriptions with form numbers, exact buffer outcomes (C44_lemmatize_partial, C44_least, C44_joined_adds). Missing: words of articles without dictionary form, where the code reads a dead array (C44_no_dictionary_form), and descriptions of joined readings, which are not counted (C44_lost_description). C44_preposition_number: reported form number 255 that BuildForm refuses. Buffers of any size: C90."
  },
  {
   "property": "C45",
   "status": "partial",
   "theorems": [
    "Libmorph.C45_bounds_cover_partial",
    "Libmorph.C45_exact",
    "Libmorph.C45_covered_iff",
    "Libmorph.C45_mixed_alternation",
    "Libmorph.C45_exact_example",
    "Libmorph.C45_empty_element"
   ],
   "note": "C45_exact gives the bounds exactly and C45_covered_iff the exact condition under which they are right; C45_bounds_cover_partial: they are, for tables without mixed alternants (Spec.SaneTable/SaneAlts). The unconditional property is false: C45_mixed_alternation and C45_empty_element show tables for which the bounds computed by the compiler lose a form."
  },
  {
   "property": "C46",
   "status": "proved",
   "theorems": [
    "Libmorph.C46_find_forms",
    "Libmorph.C46_build_form",
    "Libmorph.C46_build_form_one",
    "Libmorph.C46_build_form_unknown",
    "Libmorph.C46_arguments",
    "Libmorph.C46_forms_determined",
    "Libmorph.C46_preposition_numbers"
   ],
   "note": "Whole chain tables -> images -> traversal. FindForms: forms of all readings in order, each article's forms determined by Spec.FoundForms; BuildForm by id: Spec.BuiltForms; buffer outcome exact (FormOutcome). Ids below 2^24 for BuildForm (C02). C46_preposition_numbers records that prepositions answer different form numbers in the two functions."
  },
  {
   "property": "C47",
   "status": "proved",
   "theorems": [
    "Libmorph.C47_part_of_speech",
    "Libmorph.C47_unknown"
   ],
   "note": "For articles whose id is shared only by articles of the same part of speech; ids below 2^24 (C02)."
  },
  {
   "property": "C48",
   "status": "partial",
   "theorems": [
    "Libmorph.C48_recognized_partial",
    "Libmorph.C48_recognized_nouns",
    "Libmorph.C48_printed_partial",
    "Libmorph.C48_counterexample",
    "Libmorph.C48_not_full"
   ],
   "note": "Exact for steady requests (Spec.Steady), which covers all nouns of one animacy, uninflected words, and all articles that are not plural-only (C48_recognized_nouns); also with capitals (C48_printed_partial). The full statement is refuted (C48_not_full): plural-only adjectives/verbs, and accusatives of both animacies under alternation."
  },
  {
   "property": "C49",
   "status": "proved",
   "theorems": [
    "Libmorph.C49_agree",
    "Libmorph.C49_agree_buffers"
   ],
   "note": "Without buffers unconditionally (C49_agree), with buffers for words whose articles have dictionary forms (C49_agree_buffers); without that the code has undefined behaviour (C44_no_dictionary_form)."
  },
  {
   "property": "C50",
   "status": "partial",
   "theorems": [
    "Libmorph.C50_round_trip_partial",
    "Libmorph.C50_forms_partial",
    "Libmorph.C50_buffer_partial",
    "Libmorph.C50_unsorted"
   ],
   "note": "Form numbers of the class must ascend (C50_unsorted: otherwise forms are not found); same limits as C39. C50_buffer_partial: nothing behind the forms is touched but for one zero."
  },
  {
   "property": "C51",
   "status": "proved",
   "theorems": [
    "Libmorph.C51_models"
   ],
   "note": "Numbers that fit the 32-bit serialization."
  },
  {
   "property": "C52",
   "status": "proved",
   "theorems": [
    "Libmorph.C52_class"
   ],
   "note": ""
  },
  {
   "property": "C53",
   "status": "partial",
   "theorems": [
    "Libmorph.C53_report_partial",
    "Libmorph.C53_forms_partial",
    "Libmorph.C53_models"
   ],
   "note": "Same codec contract. Lemmatize: within 32 lemmas and 240 bytes of texts, same missing parts as C39; BuildForm: as C50 (ascending form numbers; stem below 64 characters); GetModels exact within the 1024-byte internal buffer."
  },
  {
   "property": "C54",
   "status": "proved",
   "theorems": [
    "Libmorph.C54_level",
    "Libmorph.C54_verb",
    "Libmorph.C54_masculine",
    "Libmorph.C54_feminine",
    "Libmorph.C54_adjective"
   ],
   "note": "C54_level for every word information, description and flags; C54_verb, C54_masculine, C54_feminine, C54_adjective form by form. Spec.altLevel is what C45-C48 and C30 use to describe forms."
  },
  {
   "property": "C55",
   "status": "proved",
   "theorems": [
    "Libmorph.C55_article",
    "Libmorph.C55_skip",
    "Libmorph.C55_number",
    "Libmorph.C55_files",
    "Libmorph.C55_words",
    "Libmorph.C55_no_overrun",
    "Libmorph.C55_other_numbers",
    "Libmorph.C55_unchecked",
    "Libmorph.C55_first_mark",
    "Libmorph.C55_stop",
    "Libmorph.C55_long_line",
    "Libmorph.C55_source_lines"
   ],
   "note": "C55_article and C55_skip are equivalences for every line; C55_files for lines without zero bytes and shorter than 1022 bytes (longer ones are split: C55_long_line); C55_words composes with C41 (within its limits EngOk; the converse under SuffixSafe). Defects proved: C55_other_numbers (octal ids), C55_unchecked (suffix not compared, invalid writes), C55_first_mark. strtoul is the model of the C library function; codepages::mbcstombcs is external (conv; identity in C55_files). C55_source_lines: the lines of any file at all."
  },
  {
   "property": "C56",
   "status": "proved",
   "theorems": [
    "Libmorph.C56_endings",
    "Libmorph.C56_names",
    "Libmorph.C56_references",
    "Libmorph.C56_compiles",
    "Libmorph.C56_bytes",
    "Libmorph.C56_overflow_counterexample",
    "Libmorph.C56_duplicate_counterexample"
   ],
   "note": "C56_endings (equivalence), C56_names, C56_references, C56_compiles (success under a sufficient size bound, 131065 bytes counted with 6 bytes per line and 2 per table), C56_bytes; within the limits TfcOk: fewer than 256 lines per table, endings below 128 bytes. Unchecked limits: C56_overflow_counterexample (256 lines: the table comes out empty), C56_duplicate_counterexample (the second table of a name is dropped silently)."
  },
  {
   "property": "C57",
   "status": "proved",
   "theorems": [
    "Libmorph.C57_own",
    "Libmorph.C57_exact",
    "Libmorph.C57_names",
    "Libmorph.C57_compiles",
    "Libmorph.C57_alias_counterexample",
    "Libmorph.C57_order_counterexample"
   ],
   "note": "C57_own (no hypothesis on headers), C57_exact (headers that share a name have the same names), C57_names, C57_compiles; the space bound 65530 is that of the 16-bit references. C57_alias_counterexample: headers that share only some names mix the tables; C57_order_counterexample: with the names in the other order the same source is rejected."
  },
  {
   "property": "C58",
   "status": "proved",
   "theorems": [
    "Libmorph.C58_source",
    "Libmorph.C58_unique",
    "Libmorph.C58_image",
    "Libmorph.C58_compiles"
   ],
   "note": "C58_source (equivalence between what is read and a declarative grammar of the text), C58_unique, C58_image, C58_compiles. Files: lines shorter than 4095 bytes without zero bytes; the code page conversion is a parameter that loses no text; the number of files open at once bounds include depth. The grammatical words act on the fields of a description (GramDesc); their bit masks are proved to do so. Not modelled: options (the option -w of tfc has no effect in the code), the Ukrainian words."
  },
  {
   "property": "C59",
   "status": "proved",
   "theorems": [
    "Libmorph.C59_source",
    "Libmorph.C59_unique",
    "Libmorph.C59_image",
    "Libmorph.C59_compiles",
    "Libmorph.C59_empty_counterexample"
   ],
   "note": "C59_source, C59_unique, C59_image, C59_compiles; limits as in C57 and C58. C59_empty_counterexample: a table without lines is accepted, its names are lost silently."
  },
  {
   "property": "C60",
   "status": "proved",
   "theorems": [
    "Libmorph.C60_line_sound",
    "Libmorph.C60_line_total",
    "Libmorph.C60_unique",
    "Libmorph.C60_files",
    "Libmorph.C60_words",
    "Libmorph.C60_counterexample_strip",
    "Libmorph.C60_counterexample_colon",
    "Libmorph.C60_counterexample_long",
    "Libmorph.C60_counterexample_preposition",
    "Libmorph.C60_counterexample_suffix",
    "Libmorph.C60_counterexample_headword"
   ],
   "note": "C60_line_sound, C60_line_total, C60_unique, C60_files, C60_words against the declarative RusLineSays (Spec/RusText). Limits: words of a line shorter than the arrays, suffix not longer than the headword (LineFits), shapes of tables (RusFit), lines shorter than 1022 bytes, text already in code page 1251. Each limit has a counterexample: C60_counterexample_strip (a verb table with two infinitives that go on rejects good headwords), _colon, _long (endings of 16 letters), _preposition (usage mark on a preposition: scale of cases taken for a table), _suffix, _headword."
  },
  {
   "property": "C61",
   "status": "proved",
   "theorems": [
    "Libmorph.C61_headword",
    "Libmorph.C61_recognized",
    "Libmorph.C61_counterexample_masc",
    "Libmorph.C61_counterexample_suffix"
   ],
   "note": "C61_headword, C61_recognized (SuffixSafe as in C43). Negative: C61_counterexample_masc (masculine plural-only nouns with alternation: the headword itself is not recognized), C61_counterexample_suffix (the suffix is not compared with the headword)."
  },
  {
   "property": "C62",
   "status": "proved",
   "theorems": [
    "Libmorph.C62_dictionary_form",
    "Libmorph.C62_lemma_is_headword",
    "Libmorph.C62_counterexample_twice"
   ],
   "note": "C62_dictionary_form, C62_lemma_is_headword; C62_counterexample_twice: with two endings for the nominative the alphabetically first is reported, not the headword."
  },
  {
   "property": "C63",
   "status": "proved",
   "theorems": [
    "Libmorph.C63_canonical",
    "Libmorph.C63_shared",
    "Libmorph.C63_example"
   ],
   "note": "C63_canonical, C63_shared; C63_example shows a shared and a separate table."
  },
  {
   "property": "C64",
   "status": "partial",
   "theorems": [
    "Libmorph.C64_unmerged_partial",
    "Libmorph.C64_lemmatize_partial",
    "Libmorph.C64_english_partial",
    "Libmorph.C64_find_forms",
    "Libmorph.C64_build_form",
    "Libmorph.C64_unknown",
    "Libmorph.C64_part_of_speech",
    "Libmorph.C64_code_page_find_forms_partial"
   ],
   "note": "C64_find_forms, C64_build_form, C64_unknown, C64_part_of_speech in full; Lemmatize up to the gap of C44 (articles without dictionary form, the outcome for sizes between sufficient and necessary is in C90). C64_code_page_find_forms_partial: FindForms in another code page."
  },
  {
   "property": "C65",
   "status": "partial",
   "theorems": [
    "Libmorph.C65_lemmatize_partial",
    "Libmorph.C65_english_partial",
    "Libmorph.C65_check_word_partial",
    "Libmorph.C65_too_long",
    "Libmorph.C65_build_form",
    "Libmorph.C65_english_build_form",
    "Libmorph.C65_silent",
    "Libmorph.C65_code_page_partial",
    "Libmorph.C65_code_page_check",
    "Libmorph.C65_code_page_build_form_partial"
   ],
   "note": "lemmatize and check_word up to the gaps of C43/C44; C65_too_long and C65_silent show the two wrong answers. All sizes: C90_python_*. C65_code_page_partial (lemmatize, all sizes), C65_code_page_check, C65_code_page_build_form_partial: Python in the code page it really works in (UTF-8); missing there: converted texts that take the 2048 bytes to the last, and the cases where the native library itself overflows."
  },
  {
   "property": "C66",
   "status": "proved",
   "theorems": [
    "Libmorph.C66_find_match",
    "Libmorph.C66_russian",
    "Libmorph.C66_no_stop"
   ],
   "note": "C66_find_match (English), C66_russian (where the search is defined, C31); C66_no_stop refutes the documentation."
  },
  {
   "property": "C67",
   "status": "partial",
   "theorems": [
    "Libmorph.C67_lemmatize_partial",
    "Libmorph.C67_python_partial",
    "Libmorph.C67_models",
    "Libmorph.C67_forms_partial",
    "Libmorph.C67_round_trip_partial",
    "Libmorph.C67_part_of_speech",
    "Libmorph.C67_code_page_partial",
    "Libmorph.C67_code_page_forms_partial",
    "Libmorph.C67_code_page_round_trip_partial"
   ],
   "note": "Up to the gaps of C39 and C50 (what happens to be in a scratch array must end the word; form numbers ascending). C67_code_page_partial: Python in the code page it really works in (UTF-8): the same lemmas, weights, descriptions, converted dictionary forms, stems measured in bytes of the page (in letters with SF_NO_LEMMA_STRING); an empty list when the converted texts do not fit. C67_code_page_forms_partial, C67_code_page_round_trip_partial: the same for build_form in the code page of the library."
  },
  {
   "property": "C68",
   "status": "partial",
   "theorems": [
    "Libmorph.C68_sound",
    "Libmorph.C68_complete_partial",
    "Libmorph.C68_unknown"
   ],
   "note": "C68_sound and C68_unknown in full; C68_complete_partial leaves out words that are the stem and the suffix of an article with a suffix (the run time may miss them: C43) and the limits of the format in Pipeline."
  },
  {
   "property": "C69",
   "status": "partial",
   "theorems": [
    "Libmorph.C69_headword",
    "Libmorph.C69_word_partial",
    "Libmorph.C69_headword_lemma",
    "Libmorph.C69_headword_only",
    "Libmorph.C69_lemmatize_partial"
   ],
   "note": "C69_headword, C69_headword_lemma, C69_headword_only in full; C69_word_partial (word by word, for tables with several or with reflexive and other headword endings too) and its corollary C69_lemmatize_partial (headwords come back): completeness as in C68 without words that are the stem and suffix of an article with a suffix; words of articles without dictionary form are C44_no_dictionary_form; C61_counterexample_* show the exclusions for headwords are needed."
  },
  {
   "property": "C70",
   "status": "partial",
   "theorems": [
    "Libmorph.C70_english",
    "Libmorph.C70_russian_partial",
    "Libmorph.C70_russian_not_verbs",
    "Libmorph.C70_others",
    "Libmorph.C70_others_english",
    "Libmorph.C70_refused",
    "Libmorph.C70_determined",
    "Libmorph.C70_slip",
    "Libmorph.C70_english_dictionary",
    "Libmorph.C70_russian_dictionary",
    "Libmorph.C70_russian_forms",
    "Libmorph.C70_rubl",
    "Libmorph.C70_slip_seen"
   ],
   "note": "Proved in full for English and for Russian lexemes other than verbs. For Russian verbs the list of forms contains 201 twice and not 202 (make-classes.cpp:477, 517): C70_slip states what comes of it, C70_slip_seen shows it in the tool's answer. C70_determined: the specification leaves no choice."
  },
  {
   "property": "C71",
   "status": "proved",
   "theorems": [
    "Libmorph.C71_collects",
    "Libmorph.C71_taken",
    "Libmorph.C71_classes",
    "Libmorph.C71_english",
    "Libmorph.C71_clash",
    "Libmorph.C71_example"
   ],
   "note": "C71_clash: \"бой\" and \"кий\" have the same endings but different accent schemes by the rule of the tool, so it ends with an exception unless one of them is banned. C71_english: the English tool never does."
  },
  {
   "property": "C72",
   "status": "proved",
   "theorems": [
    "Libmorph.C72_merges",
    "Libmorph.C72_longest",
    "Libmorph.C72_total",
    "Libmorph.C72_collected",
    "Libmorph.C72_example"
   ],
   "note": "The English tool merges part of speech 1, too, where 1 is the noun (the comment in the code says verbs)."
  },
  {
   "property": "C73",
   "status": "proved",
   "theorems": [
    "Libmorph.C73_selection",
    "Libmorph.C73_heavier",
    "Libmorph.C73_not_all",
    "Libmorph.C73_positive"
   ],
   "note": "Never all: with one class only, nothing is printed (C73_not_all)."
  },
  {
   "property": "C74",
   "status": "proved",
   "theorems": [
    "Libmorph.C74_made",
    "Libmorph.C74_modelled",
    "Libmorph.C74_share",
    "Libmorph.C74_example"
   ],
   "note": "C74_example: four lexemes through the whole tool."
  },
  {
   "property": "C75",
   "status": "partial",
   "theorems": [
    "Libmorph.C75_own_words",
    "Libmorph.C75_guesses",
    "Libmorph.C75_said_partial",
    "Libmorph.C75_forms_partial",
    "Libmorph.C75_derived",
    "Libmorph.C75_example"
   ],
   "note": "Proved in full on the level of the reports (C75_own_words, C75_derived, C75_guesses); through Lemmatize and BuildForm of the compiled image within the limits of C39/C50 (word below 256 bytes, 8 parts, 64-byte forms, what the buffer happens to contain). The forms are those in small letters by the tool's table; the library's table also maps ё to е."
  },
  {
   "property": "C76",
   "status": "partial",
   "theorems": [
    "Libmorph.C76_readings",
    "Libmorph.C76_lemmas_partial",
    "Libmorph.C76_forms_partial"
   ],
   "note": "Within the limits of C22/C41: words of at most 8 parts, suffix-safe, readings with different ids, articles with a dictionary form; an uninflected article with a suffix loses the suffix (C22_counterexample)."
  },
  {
   "property": "C77",
   "status": "partial",
   "theorems": [
    "Libmorph.C77_build_form",
    "Libmorph.C77_build_unknown",
    "Libmorph.C77_find_forms_partial",
    "Libmorph.C77_part_of_speech"
   ],
   "note": "BuildForm and GetWdInfo in full; C77_find_forms_partial: completeness as in C68 without words that are the stem and suffix of an article with a suffix. The number of forms for one description is bounded by the 256 bytes of the library's own buffer (part of the outcome)."
  },
  {
   "property": "C78",
   "status": "proved",
   "theorems": [
    "Libmorph.C78_array",
    "Libmorph.C78_scope",
    "Libmorph.C78_pieces",
    "Libmorph.C78_empty",
    "Libmorph.C78_license",
    "Libmorph.C78_fuzzy"
   ],
   "note": "The reader (Spec/Cpp) is the part of C++ these texts use: words, numbers, comments, namespaces (also nested, a::b, as the libraries are built), arrays of unsigned char and unsigned, numbers. The file can be created and written."
  },
  {
   "property": "C79",
   "status": "proved",
   "theorems": [
    "Libmorph.C79_report",
    "Libmorph.C79_same",
    "Libmorph.C79_ends",
    "Libmorph.C79_ends_ordered",
    "Libmorph.C79_hangs",
    "Libmorph.C79_blank",
    "Libmorph.C79_blank_passed",
    "Libmorph.C79_dump",
    "Libmorph.C79_dump_line",
    "Libmorph.C79_line",
    "Libmorph.C79_ambiguous",
    "Libmorph.C79_read_back",
    "Libmorph.C79_check",
    "Libmorph.C79_build_check",
    "Libmorph.C79_far",
    "Libmorph.C79_russian"
   ],
   "note": "Defects found, each a theorem: C79_hangs (no end for two lines in different order), C79_far (false reports beyond 1024 lines), C79_ambiguous (two tables of forms, one line), and only the first form of a form number is in the dump. For the Russian dictionary the suffixes after a form have at most 124 letters and words no line breaks (RusPrintable)."
  },
  {
   "property": "C80",
   "status": "proved",
   "theorems": [
    "Libmorph.C80_russian",
    "Libmorph.C80_english",
    "Libmorph.C80_fuzzy",
    "Libmorph.C80_sources"
   ],
   "note": "The reader of C++ is that of C78; texts of suffixes and tables are bytes. The external mtc::patricia tree is one of bytes (PTree.Text)."
  },
  {
   "property": "C81",
   "status": "partial",
   "theorems": [
    "Libmorph.C81_report_partial",
    "Libmorph.C81_silent",
    "Libmorph.C81_none",
    "Libmorph.C81_determined",
    "Libmorph.C81_line",
    "Libmorph.C81_counterexample",
    "Libmorph.C81_counterexample_behind",
    "Libmorph.C81_reads_behind",
    "Libmorph.C81_file_lines"
   ],
   "note": "The full property is false: C81_counterexample (the smallest number not divisible by 32: 'No lexemes present', GetMinLexId never shifts its bit), C81_counterexample_behind (a 'hole' behind the largest number when the number before it is used). C81_report_partial and C81_silent together say exactly what is printed for every set of numbers; C81_determined: the specification leaves no choice. C81_line: numbers in decimal; lines up to 1023 bytes as fgets cuts them; C81_reads_behind: a mark without number at the end of the file. C81_file_lines: the lines of any file."
  },
  {
   "property": "C82",
   "status": "proved",
   "theorems": [
    "Libmorph.C82_russian",
    "Libmorph.C82_english",
    "Libmorph.C82_fuzzy",
    "Libmorph.C82_compiled_russian",
    "Libmorph.C82_compiled_english",
    "Libmorph.C82_older_files"
   ],
   "note": "C82_russian, C82_english, C82_fuzzy: any remainder of a set of files that links gives nothing or the same tables; C82_compiled_russian/english: of the files the modelled compilers write. C82_older_files: counterexample when older files are left in place. The reader of C++ (Spec/Cpp) is ours: it accepts the sublanguage the dumper writes; that a real compiler rejects what it rejects (unterminated array, namespace or comment) is an assumption."
  },
  {
   "property": "C83",
   "status": "partial",
   "theorems": [
    "Libmorph.C83_check",
    "Libmorph.C83_lemmatize",
    "Libmorph.C83_find_forms",
    "Libmorph.C83_build_form",
    "Libmorph.C83_wd_info",
    "Libmorph.C83_clash_counterexample",
    "Libmorph.C83_lines",
    "Libmorph.C83_growth_partial",
    "Libmorph.C83_growth_counterexample",
    "Libmorph.C83_english_words",
    "Libmorph.C83_english_numbers",
    "Libmorph.C83_english_growth_partial",
    "Libmorph.C83_english_growth_counterexample",
    "Libmorph.C83_find_match",
    "Libmorph.C83_english_find_match",
    "Libmorph.C83_code_page",
    "Libmorph.C83_lines_calls",
    "Libmorph.C83_lines_match"
   ],
   "note": "C83_check, C83_lemmatize, C83_find_forms, C83_build_form, C83_wd_info: two orders of Russian articles (clashing articles keep their order) give equal answers of every call, byte for byte. C83_lines: the same for the lines of the source files. C83_english_words, C83_english_numbers: English. C83_clash_counterexample: for articles that clash (same stem, suffix, number) the order shows in the answer. C83_growth_partial, C83_english_growth_partial: added lines take no word away, except words with a suffix; the full statement is refuted by C83_growth_counterexample (\"там-то\" is lost when \"там\" is added) and C83_english_growth_counterexample. C83_find_match, C83_english_find_match: FindMatch with any template, also where it is undefined, makes the same calls of the client. C83_code_page: every call of the Russian objects for other code pages. C83_lines_match, C83_lines_calls: FindMatch and all calls, for lines of the sources."
  },
  {
   "property": "C84",
   "status": "proved",
   "theorems": [
    "Libmorph.C84_check",
    "Libmorph.C84_find_forms",
    "Libmorph.C84_build_form",
    "Libmorph.C84_lemmatize",
    "Libmorph.C84_lemmatize_numbers",
    "Libmorph.C84_long",
    "Libmorph.C84_find_match",
    "Libmorph.C84_template_refused",
    "Libmorph.C84_find_match_russian"
   ],
   "note": "C84_check, C84_lemmatize (texts, descriptions and counts of every buffer size), C84_lemmatize_numbers (the call without buffers), C84_find_forms, C84_build_form, C84_long, C84_find_match, C84_template_refused. The conversion itself is the external library moonycode: the theorems assume its contract Page.Ok, shown to be met by a UTF-8 encoder of the Russian letters (utf8Page_ok)."
  },
  {
   "property": "C85",
   "status": "partial",
   "theorems": [
    "Libmorph.C85_russian_partial",
    "Libmorph.C85_part_of_speech",
    "Libmorph.C85_code_page_partial",
    "Libmorph.C85_english_partial",
    "Libmorph.C85_main",
    "Libmorph.C85_main_counterexample",
    "Libmorph.C85_quote_counterexample",
    "Libmorph.C85_russian_exact",
    "Libmorph.C85_english_exact",
    "Libmorph.C85_code_page_exact_partial"
   ],
   "note": "C85_russian_partial, C85_code_page_partial, C85_english_partial: what is printed is read by an independent JSON reader (Spec/Json) and compared with the analyses. C85_russian_exact, C85_english_exact: code page 1251 for all sizes of the answer (lemmEnd of C90 works out whether the records, an empty array or undefined behaviour is the outcome). C85_part_of_speech: the number printed is the part of speech of the article. C85_main: arguments, default code page, errors. Missing: false in the code (C85_quote_counterexample, C85_main_counterexample); words of articles without dictionary form (C44); in other code pages (C85_code_page_exact_partial) dictionary forms beyond the library's own 256 bytes, the write behind the records, and texts that fill the 256 bytes to the last."
  },
  {
   "property": "C86",
   "status": "partial",
   "theorems": [
    "Libmorph.C86_stematize_partial",
    "Libmorph.C86_quote_counterexample",
    "Libmorph.C86_code_page_partial"
   ],
   "note": "C86_stematize_partial: when the analyser answers within 64 records, 256 bytes and 64 descriptions, the text printed is read back by the JSON reader as those records. C86_code_page_partial: the same in another code page (UTF-8 is the default of the tool), the dictionary forms converted; not covered there: texts that fill the 256 bytes to the last. Missing: false in the code for words with quotation marks (C86_quote_counterexample); the text of a score is the contract of printf."
  },
  {
   "property": "C87",
   "status": "partial",
   "theorems": [
    "Libmorph.C87_lemmatize",
    "Libmorph.C87_build_form",
    "Libmorph.C87_stem",
    "Libmorph.C87_long",
    "Libmorph.C87_no_buffer",
    "Libmorph.C87_models_partial",
    "Libmorph.C87_utf8_ok",
    "Libmorph.C87_stem_length_differs",
    "Libmorph.C87_models_overrun"
   ],
   "note": "C87_lemmatize, C87_stem, C87_build_form, C87_long, C87_no_buffer: for arbitrary images; the guesses and lemmas are the same whatever the size of the buffers; what is an error with every buffer is an error in the page. C87_models_partial: for conversions that want room for the zero; for the others GetModels overruns (C87_models_overrun, a real defect). C87_stem_length_differs: without a lemma buffer the stem length counts letters. C87_utf8_ok: UTF-8 with the Russian table meets the assumptions. Missing: false in the code, as shown."
  },
  {
   "property": "C88",
   "status": "partial",
   "theorems": [
    "Libmorph.C88_text",
    "Libmorph.C88_no_json",
    "Libmorph.C88_loaded_partial",
    "Libmorph.C88_empty",
    "Libmorph.C88_passed_partial",
    "Libmorph.C88_example",
    "Libmorph.C88_quote",
    "Libmorph.C88_faults"
   ],
   "note": "C88_text: the value meant, for a reader that takes the trailing comma; C88_no_json: a strict reader refuses every such text with a class. C88_loaded_partial, C88_passed_partial: compile-dict gets the same classes or refuses (ending over 30 letters, no class); C88_passed_partial is end to end from the dictionary. C88_empty, C88_quote, C88_faults: the other ends, including the uncaught std::invalid_argument. Missing: false in the code, as shown; mtc::json::Parse is external and taken to be the reader of Spec/Json."
  },
  {
   "property": "C89",
   "status": "partial",
   "theorems": [
    "Libmorph.C89_marks_partial",
    "Libmorph.C89_number",
    "Libmorph.C89_banned",
    "Libmorph.C89_files",
    "Libmorph.C89_silent",
    "Libmorph.C89_cut",
    "Libmorph.C89_example_marks",
    "Libmorph.C89_example",
    "Libmorph.C89_any_number",
    "Libmorph.C89_any_file"
   ],
   "note": "C89_any_file with C89_any_number: which numbers are banned and selected, whatever the files (lines as the C library reads them into 1024 bytes); C89_marks_partial with C89_number: the same for lines up to 1022 bytes without zero bytes and plain numbers. C89_banned: equal to the run without them, for every dictionary. C89_files: several files, unopened file. C89_cut, C89_silent: the counterexamples. C89_example: from marked files to the compiled class. Missing: false in the code, as shown."
  },
  {
   "property": "C90",
   "status": "proved",
   "theorems": [
    "Libmorph.C90_russian",
    "Libmorph.C90_english",
    "Libmorph.C90_wrapper_russian",
    "Libmorph.C90_wrapper_english",
    "Libmorph.C90_python_russian",
    "Libmorph.C90_python_english",
    "Libmorph.C90_monotone",
    "Libmorph.C90_undefined",
    "Libmorph.C90_spare",
    "Libmorph.C90_defined",
    "Libmorph.C90_roomy",
    "Libmorph.C90_overflow"
   ],
   "note": "C90_russian, C90_english: every call ends as lemmEnd (Spec/LemmEnd, a rule over the sizes) says. C90_undefined: when a write behind the record buffer occurs; C90_overflow: it does occur, with one record for an answer of one record. C90_spare, C90_defined, C90_monotone, C90_roomy: what callers can rely on. C90_wrapper_*, C90_python_*: the wrappers with their fixed sizes. Settles the sizes that C44, C64, C65 and C85 leave open."
  },
  {
   "property": "C91",
   "status": "proved",
   "theorems": [
    "Libmorph.C91_wordset",
    "Libmorph.C91_game",
    "Libmorph.C91_best",
    "Libmorph.C91_shipped",
    "Libmorph.C91_no_object",
    "Libmorph.C91_other_letters"
   ],
   "note": "C91_wordset (with rusWordset_eq, from C40 and C47): GetWordset on any compiled dictionary is an exact source of its game words. C91_game: for any exact source the loop ends within words + 1 passes, with the history as stated; the invariant is that every letter set and the template hold of the sample. C91_best: the word tried has the highest rank among those untried. C91_shipped, C91_no_object, C91_other_letters: the defects of the program as shipped. Not modelled: the text printed, 5-samples GetNewTask."
  },
  {
   "property": "C92",
   "status": "proved",
   "theorems": [
    "Libmorph.C92_words",
    "Libmorph.C92_russian",
    "Libmorph.C92_english",
    "Libmorph.C92_long_counterexample",
    "Libmorph.C92_instant",
    "Libmorph.C92_main_counterexample",
    "Libmorph.C92_main",
    "Libmorph.C92_wildcards",
    "Libmorph.C92_wildcards_counterexample",
    "Libmorph.C92_input_lines"
   ],
   "note": "C92_words: exact words and order. C92_russian, C92_english: the numbers reported (code page 1251), from C90. C92_long_counterexample, C92_instant: the wrong count, the undefined conversion. C92_main, C92_main_counterexample: the command line. C92_wildcards: from C84_find_match_russian (FindMatch in a code page for a compiled dictionary, no assumption on the search left). C92_wildcards_counterexample: as shipped. The quotient words per second is taken to be exact. C92_input_lines: the lines of any input to wildcards."
  },
  {
   "property": "C93",
   "status": "proved",
   "theorems": [
    "Libmorph.C93_table",
    "Libmorph.C93_proportions",
    "Libmorph.C93_words_russian",
    "Libmorph.C93_words_english",
    "Libmorph.C93_russian",
    "Libmorph.C93_english",
    "Libmorph.C93_defined",
    "Libmorph.C93_missing",
    "Libmorph.C93_folded",
    "Libmorph.C93_reads",
    "Libmorph.C93_reads_counterexample",
    "Libmorph.C93_array",
    "Libmorph.C93_rows",
    "Libmorph.C93_array_counterexample",
    "Libmorph.C93_array_size",
    "Libmorph.C93_votes_russian",
    "Libmorph.C93_votes_english",
    "Libmorph.C93_hex",
    "Libmorph.C93_any_text_russian",
    "Libmorph.C93_any_text_english"
   ],
   "note": "C93_words_*: the words (Spec Cut, unique), lines up to 0x3ffe bytes, no zero bytes. C93_any_text_*: all texts, by the portions (Spec Portions, unique) they are read in. C93_russian, C93_english: the whole program, from C90. C93_table, C93_proportions: every cell, the sums, signs, divisors. C93_defined, C93_missing. C93_folded, C93_reads, C93_reads_counterexample: what readers of the table get. C93_array, C93_rows, C93_array_size, C93_array_counterexample: the text. Doubles are taken to be exact rational numbers; the format of numbers is a parameter; words with more than eight parts are excluded (C15)."
  },
  {
   "property": "C94",
   "status": "proved",
   "theorems": [
    "Libmorph.C94_tfc",
    "Libmorph.C94_w_counterexample",
    "Libmorph.C94_makeich",
    "Libmorph.C94_refused",
    "Libmorph.C94_rest_counterexample",
    "Libmorph.C94_tables_changed",
    "Libmorph.C94_ukrainian",
    "Libmorph.C94_ukrainian_unknown",
    "Libmorph.C94_makeeng_refused",
    "Libmorph.C94_makeeng",
    "Libmorph.C94_build_english",
    "Libmorph.C94_makerus_refused",
    "Libmorph.C94_makerus",
    "Libmorph.C94_makerus_changed",
    "Libmorph.C94_pack_counterexample",
    "Libmorph.C94_codepage_counterexample",
    "Libmorph.C94_build"
   ],
   "note": "C94_tfc, C94_makeich, C94_refused, C94_tables_changed: the compilers of tables. C94_makerus, C94_makerus_refused, C94_makerus_changed, C94_makeeng, C94_makeeng_refused: the compilers of dictionaries. C94_build, C94_build_english: from sources to linked libraries, with C68, C55, C80. C94_ukrainian, C94_ukrainian_unknown. C94_w_counterexample, C94_codepage_counterexample, C94_pack_counterexample, C94_rest_counterexample: what is false. The format of index files (mtc) and the conversions are parameters; the file of unknown words is taken to be none of the dictionaries and written after they are read; fclose and fwrite do not fail."
  },
  {
   "property": "C95",
   "status": "partial",
   "theorems": [
    "Libmorph.C95_compiled",
    "Libmorph.C95_statuses",
    "Libmorph.C95_calls",
    "Libmorph.C95_untouched",
    "Libmorph.C95_default_namespace",
    "Libmorph.C95_build",
    "Libmorph.C95_check",
    "Libmorph.C95_own_dump",
    "Libmorph.C95_dump_ends",
    "Libmorph.C95_pipeline_partial",
    "Libmorph.C95_example"
   ],
   "note": "compile-dict and dicdump are proved in full (C95_compiled, C95_statuses, C95_calls, C95_untouched, C95_default_namespace, C95_build, C95_check, C95_own_dump, C95_dump_ends); the pipeline only for lexemes whose letters can be passed on by the text of make-classes (C88: quotation marks, backslashes and letters that 1251 and UTF-8 do not share are lost there)."
  },
  {
   "property": "C96",
   "status": "proved",
   "theorems": [
    "Libmorph.C96_russian_call",
    "Libmorph.C96_english_call",
    "Libmorph.C96_russian",
    "Libmorph.C96_english",
    "Libmorph.C96_fuzzy_counterexample",
    "Libmorph.C96_code_page_call",
    "Libmorph.C96_code_page",
    "Libmorph.C96_sources"
   ],
   "note": "C96_russian, C96_english: histories. C96_russian_call, C96_english_call: one call, two stacks. C96_code_page, C96_code_page_call: the Russian objects for other code pages. C96_sources: for a dictionary compiled from texts. C96_fuzzy_counterexample. A call is one step of the model: that calls in different threads do not share writable memory is read off the source (Model/Session.lean), not proved."
  },
  {
   "property": "C97",
   "status": "partial",
   "theorems": [
    "Libmorph.C97_sound",
    "Libmorph.C97_complete_partial",
    "Libmorph.C97_defined_partial",
    "Libmorph.C97_english_partial",
    "Libmorph.C97_english_exact",
    "Libmorph.C97_code_page",
    "Libmorph.C97_utf8"
   ],
   "note": "C97_sound; C97_complete_partial: but for stem and suffix only (refuted in general by C23/C31 counterexamples); C97_defined_partial: sufficient conditions (in general the buffers overflow, C31). Sample: pipe_searched, pipe_all_ids, pipe_few. C97_english_partial: the English counterpart, from the lines of the dictionary; but for forms that are stem and suffix only; C97_english_exact: exactly what is found, with those. C97_code_page, C97_utf8: other code pages."
  },
  {
   "property": "C98",
   "status": "partial",
   "theorems": [
    "Libmorph.C98_words",
    "Libmorph.C98_lines",
    "Libmorph.C98_silent",
    "Libmorph.C98_known_partial"
   ],
   "note": "C98_words, C98_silent in full; C98_known_partial: words of fewer than 48 letters, not at risk because of a suffix (C43), whose answers fit into the buffers of the Python class (otherwise the count can differ: C65, C67). The times are not modelled."
  }
 ]
}