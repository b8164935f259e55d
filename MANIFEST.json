{"claims": [
 {"property": "C01", "status": "proved", "theorems": ["Verif.Seq.C01_at_most_one_active", "Verif.Seq.C01_at_most_one_active_dropping", "Verif.Seq.C01_false_for_end_at_zero"], "note": "All add_document histories with arbitrary outcomes, and error-free histories with discard_before; documents well timed (end not before begin, end not at time zero; the zero restriction is needed, see the counterexample)."},
 {"property": "C02", "status": "proved", "theorems": ["Verif.Seq.C02_active_is_newest_begun", "Verif.Seq.C02_only_accepted"], "note": ""},
 {"property": "C03", "status": "proved", "theorems": ["Verif.Seq.C03_delivery_order_irrelevant"], "note": ""},
 {"property": "C04", "status": "proved", "theorems": ["Verif.Seq.C04_resolved_times"], "note": ""},
 {"property": "C05", "status": "proved", "theorems": ["Verif.Seq.C05_number_order_is_time_order", "Verif.Seq.C05_number_order_is_time_order_dropping"], "note": ""},
 {"property": "C06", "status": "proved", "theorems": ["Verif.Seq.C06_collision"], "note": ""},
 {"property": "C07", "status": "proved", "theorems": ["Verif.Seq.C07_incompatible_refused", "Verif.Seq.C07_refused_reason", "Verif.Seq.C07_group_adopted_once", "Verif.Seq.C07_group_never_changes"], "note": ""},
 {"property": "C08", "status": "partial", "theorems": ["Verif.Seq.C08_in_order_partial", "Verif.Seq.C08_increasing_partial", "Verif.Seq.C08_separated_partial", "Verif.Seq.C08_error_kinds_partial", "Verif.Seq.C08_late_partial", "Verif.Seq.C08_arrival_partial", "Verif.Seq.C08_exact_partial", "Verif.Seq.C08_false_open_ended", "Verif.Seq.C08_false_swapped"], "note": "False of the code in general (two counterexamples). Proved: the exact condition (C08_exact_partial): in a history of documents that fit in, a further one keeps the sequence working if and only if a newer held document has already begun when it begins, or it ends strictly before every newer held document begins. It covers in-order histories with drops, non-touching documents in any order, and every arrival order in which late documents end before the newer ones (C08_arrival_partial). The kinds of unexpected errors are characterised for all histories."},
 {"property": "C09", "status": "proved", "theorems": ["Verif.Seq.C09_new_numbers_fresh"], "note": ""},
 {"property": "C10", "status": "proved", "theorems": ["Verif.Seq.C10_lookup_exact"], "note": ""},
 {"property": "C100", "status": "partial", "theorems": ["Verif.Convert.C100_blocks_played_partial"], "note": "True for blocks that are not empty and have no blank lines, documents that arrive before their second is over (if it has begun, in whole milliseconds), and times below 100 hours. A document that arrives late begins when it arrives and still ends with its second. Documents that arrive after their second are not covered: extraction can raise on them (C101_false_too_late)."},
 {"property": "C101", "status": "partial", "theorems": ["Verif.Node.C101_stopped", "Verif.Node.C101_goes_on", "Verif.Node.C101_first_failure", "Verif.Node.C101_in_order", "Verif.Node.C101_producer_until", "Verif.Node.C101_producer_cycle_partial", "Verif.Node.C101_producer_ends", "Verif.Node.C101_false_empty_block", "Verif.Convert.C101_chain_partial", "Verif.Convert.C101_false_nested", "Verif.Convert.C101_false_out_of_order", "Verif.Convert.C101_false_first_document", "Verif.Convert.C101_live_partial", "Verif.Convert.C101_false_too_late", "Verif.Node.C101_producer_receiver_raises"], "note": "The general part is exact. That the chain to the encoder never stops is proved under the conditions of C99; without them it is false (the C101_false theorems). The same from the text on (C101_live_partial), under the conditions of C100; a document that arrives after its second can end it for good (C101_false_too_late). The producer never stops below 100 hours less a second and for blocks that are not empty. Of Twisted's LoopingCall, not in the repository, it is assumed that it makes no call after one that raised."},
 {"property": "C102", "status": "partial", "theorems": ["Verif.App.C102_proxy_read", "Verif.App.C102_refused_iff", "Verif.App.C102_used_partial", "Verif.App.C102_false_legacy"], "note": "Reading is exact for all texts. False of legacy inputs: their proxy is read and never used (C102_false_legacy). That the websocket library connects through the proxy of its factory is assumed, as is that the configuration library calls the converter for texts only."},
 {"property": "C103", "status": "partial", "theorems": ["Verif.Convert.C103_played_partial", "Verif.Convert.C103_stays_in_control", "Verif.Convert.C103_takeover_partial", "Verif.Convert.C103_delayed_partial", "Verif.Convert.C103_delays_partial"], "note": "For documents of one time base and clock with times in whole milliseconds below 100 hours, lines that hold no other lines and no nested paragraphs, as in C99; what the encoder hands its documents to is taken not to raise. With one or several delay nodes in between under the conditions of C104 and C112."},
 {"property": "C104", "status": "partial", "theorems": ["Verif.Convert.C104_read_later_partial", "Verif.Convert.C104_delayed_partial"], "note": "For documents of one time base and clock with times in whole milliseconds below 100 hours, lines that hold no other lines and no nested paragraphs, as in C99, and whose bodies can be retimed as in C37; what the encoder hands its documents to is taken not to raise."},
 {"property": "C105", "status": "partial", "theorems": ["Verif.Style.C105_looks_alike_partial", "Verif.Style.C105_false_style_reference"], "note": "For the documents of C42_appearance_kept_partial (identifiers differ, no references between styles, ...). What attribute values mean is a parameter of the model. C105_false_style_reference: with a reference from a style to a style the document is not valid afterwards."},
 {"property": "C106", "status": "partial", "theorems": ["Verif.Convert.C106_encoded_alike_partial"], "note": "For the documents of C42_appearance_kept_partial and C105, without styles named like generated ones (C75). What attribute values mean and how font sizes are printed are parameters of the model."},
 {"property": "C107", "status": "partial", "theorems": ["Verif.Convert.C107_encoded_looks_alike_partial", "Verif.Convert.C107_sequence_looks_alike_partial", "Verif.Convert.C107_whole_run_partial", "Verif.Convert.C107_sequence_encodes_partial", "Verif.Convert.C107_segments_encode_partial", "Verif.Convert.C107_whole_run_sure_partial", "Verif.Convert.C107_every_tick_emits_partial"], "note": "Under the conditions of C43 and C73 (times on p and span, styles that refer to no styles, no style on the body) and, behind a sequence, of C59 and C86; each has a witness there. Of the look, multiRowAlign, padding and the width of the font are left out, see C73_false_multi_row_align, C73_false_padding, C74_false_width. When the conversion of a document succeeds is C76; that the segments of a resequencer can be encoded is shown for documents without font sizes of zero whose regions have places that can be read. That every tick emits is shown without discarding, see C11_second_discard_can_fail."},
 {"property": "C108", "status": "partial", "theorems": ["Verif.Convert.C108_shows_the_same_partial", "Verif.Convert.C108_live_document_partial", "Verif.Convert.C108_whole_run_partial", "Verif.Convert.C108_whole_run_sure_partial"], "note": "Documents for which Dedup.Clean holds, see C42 and C105 for the witnesses against others; from the live document on, under the conditions of C107. Identifiers are shown to stay unique, so that the document stays valid."},
 {"property": "C109", "status": "partial", "theorems": ["Verif.Mark.C109_segment_partial", "Verif.Mark.C109_at_each_instant_partial", "Verif.Mark.C109_spliced_texts", "Verif.Mark.C109_splice_partial", "Verif.Mark.C109_convert_partial", "Verif.Mark.C109_encoded_sequence_partial", "Verif.Mark.C109_resequenced_partial", "Verif.Mark.C109_played_is_active_partial", "Verif.Mark.C109_whole_run_partial", "Verif.Mark.C109_false_outer_space", "Verif.Mark.C109_false_languages", "Verif.Mark.C109_false_body_agent", "Verif.Mark.C109_false_div_role"], "note": "False in four cases, each shown by a witness: xml:space on the tt element is lost in segments; texts of later documents of a sequence get the first document's language and the agent and role of its body; the encoder drops the role of a div. Proved for documents without these. What splicing does to documents that disagree is stated exactly by C109_spliced_texts. The role of a line break is not modelled. At each instant under the conditions of C24 and C28. At the player under the conditions of C86, for single windows and for whole runs of a resequencer."},
 {"property": "C11", "status": "proved", "theorems": ["Verif.Seq.C11_discard_before", "Verif.Seq.C11_discard_before_succeeds", "Verif.Seq.C11_second_discard_can_fail"], "note": "The call itself can raise on a state left by an earlier discard_before after out-of-order delivery (counterexample); on add-only and in-order histories it always succeeds."},
 {"property": "C110", "status": "partial", "theorems": ["Verif.Convert.C110_result", "Verif.Convert.C110_content_kept", "Verif.Convert.C110_what_changes", "Verif.Convert.C110_unchanged_iff", "Verif.Convert.C110_no_div", "Verif.Convert.C110_again", "Verif.Convert.C110_invalid_afterwards", "Verif.Convert.C110_valid_afterwards_partial", "Verif.Convert.C110_false_unchanged"], "note": "The property is false of the code under the assumption that PyXB keeps a list object that already has the type of the attribute. Proved: only style references of p and span can change; exactly which change and how; the document is unchanged, and a second encoding gives the same, if and only if no p or span has both style references and a font size other than that of its surroundings; otherwise the document is no longer valid. Missing from the full statement: documents with such elements, for which C110_invalid_afterwards and C110_false_unchanged show that it fails."},
 {"property": "C111", "status": "partial", "theorems": ["Verif.SegHead.C111_resegmented_place_partial", "Verif.SegHead.C111_false_cells", "Verif.Convert.C111_encoded_place_partial", "Verif.Convert.C111_sequence_place_partial", "Verif.Convert.C111_false_pixels", "Verif.Convert.C111_sequence_encodes_partial", "Verif.Convert.C111_whole_run_partial", "Verif.Convert.C111_segments_encode_partial", "Verif.Convert.C111_whole_run_sure_partial"], "note": "For every reachable sequence and window: extraction keeps the place of each text, and so does encoding, for one document, for the extracted one, and for all segments of a resequencer played together; what is extracted can be encoded. Missing: what C59 and C107 ask of documents and window; false if documents differ in cell resolution (that of the first is taken for all) and for regions in pixels (passed on in pixels)."},
 {"property": "C112", "status": "partial", "theorems": ["Verif.Node.Record.C112_retimed_twice_partial", "Verif.Node.Record.C112_one_entry_each", "Verif.Node.Record.C112_record_tells_delay_partial", "Verif.Node.Record.C112_chain_is_one_node_partial", "Verif.Node.Record.C112_refused_untouched", "Verif.Convert.C112_viewers_partial", "Verif.Convert.C112_read_later_partial", "Verif.Node.Record.C112_false_below_millisecond", "Verif.Node.Record.C112_false_same_identifier", "Verif.Node.Record.C112_false_failed_delivery"], "note": "The record (C112_one_entry_each) and the refused documents (C112_refused_untouched) are unconditional. The sum needs whole milliseconds below 100 hours; below the millisecond each node cuts off on its own. What viewers read behind a resequencer and encoder (C112_viewers_partial, C112_read_later_partial) is under the conditions of C104. A delivery that raises has already changed identifier and record of the document object. Segments and EBU-TT-D documents have no metadata, so a resequencer or encoder ends the record; this is not modelled."},
 {"property": "C113", "status": "partial", "theorems": ["Verif.Fs.Encoding.C113_only_writable_read_partial", "Verif.Fs.Encoding.C113_raises_iff", "Verif.Fs.Encoding.C113_files", "Verif.Fs.Encoding.C113_crash", "Verif.Fs.Encoding.C113_identifier", "Verif.Fs.Encoding.C113_plain_as_before", "Verif.Fs.Encoding.C113_false_not_ascii", "Verif.Fs.Encoding.C113_false_overwritten", "Verif.Fs.Travel.C113_never_garbled", "Verif.Fs.Travel.C113_plain_arrives_partial", "Verif.Fs.Travel.C113_arrives_iff", "Verif.Fs.Travel.C113_false_folder", "Verif.Fs.Travel.C113_false_distributing"], "note": "For Python 2. False outside ASCII: a folder output raises at text and leaves an empty file, which the manifest does not list; a distributing node that got its documents as bytes cannot send them over a websocket. C113_arrives_iff says exactly which chains such a document passes; C113_never_garbled that nothing arrives altered; C113_only_writable_read_partial that failing calls do not disturb the others, and C113_crash the same at every point where the producer is stopped. That XML without encoding declaration is read as UTF-8 is an assumption about the parser."},
 {"property": "C114", "status": "partial", "theorems": ["Verif.Xml.Ttd.C114_tags", "Verif.Xml.Ttd.C114_default_namespace_partial", "Verif.Xml.Ttd.C114_false_prefixed", "Verif.Xml.Ttd.C114_false_setting"], "note": "False of the form with prefix: no such document is ever read back (C114_false_prefixed), and the encoder sends all its documents in that form whatever its setting is (C114_false_setting). Proved of the other form for documents in which text is not beside elements, as in C68. Elements of other namespaces and the timing attributes (C85) are left out."},
 {"property": "C12", "status": "proved", "theorems": ["Verif.Seq.C12_windows"], "note": ""},
 {"property": "C13", "status": "proved", "theorems": ["Verif.Seq.C13_not_held_is_discarded", "Verif.Seq.C13_discarded_never_held", "Verif.Seq.C13_discarded_raises_when_open_ended"], "note": "Reading `discarded` of a held open-ended document raises TypeError (shown)."},
 {"property": "C14", "status": "partial", "theorems": ["Verif.Doc.C14_computed_times_partial", "Verif.Doc.C14_false_zero_begin", "Verif.Doc.C14_false_zero_end"], "note": "All documents, reading zero-valued begin/end/dur as absent, as the code does; the counterexamples show that the plain rule is false there. A badly timed body is excepted."},
 {"property": "C15", "status": "proved", "theorems": ["Verif.Doc.C15_context_restored", "Verif.Doc.C15_siblings_independent"], "note": ""},
 {"property": "C16", "status": "partial", "theorems": ["Verif.Doc.C16_available_and_bounded_partial", "Verif.Doc.C16_false_badly_timed_body"], "note": "The availability half is false for a body whose end is not after its begin (computed begin 0); proved for all other elements. The end half is proved for every enclosing element."},
 {"property": "C17", "status": "proved", "theorems": ["Verif.Doc.C17_document_covers_content"], "note": ""},
 {"property": "C18", "status": "partial", "theorems": ["Verif.Doc.C18_badly_timed_spelled_partial", "Verif.Doc.C18_badly_timed_same_digits_partial", "Verif.Doc.C18_badly_timed_counts_partial", "Verif.Doc.C18_badly_timed_clock_partial", "Verif.Doc.C18_excluded_children_have_no_effect", "Verif.Doc.C18_false_timecounts", "Verif.Doc.C18_false_hours", "Verif.Doc.C18_false_fractions", "Verif.Doc.C18_false_second_sixty", "Verif.Doc.C18_false_timecount_digits", "Verif.Doc.C18_false_document_interval"], "note": "The code compares the attribute texts. For clock times with equally many hour digits and seconds below sixty the comparison is characterised exactly, for fractions of any lengths: it is right except for an empty interval whose end is spelled with more digits. Right for clock times and for timecounts with equally many digits. False for timecounts and hours with different numbers of digits and for the second sixty, with a document whose interval is wrong as a result."},
 {"property": "C19", "status": "proved", "theorems": ["Verif.Time.C19_full_clock_round_trip"], "note": "Float parsing is a parameter assumed accurate to better than 1 microsecond on fractions; an exact reader shows the assumption can be met."},
 {"property": "C20", "status": "proved", "theorems": ["Verif.Time.C20_limited_clock_round_trip"], "note": "As C19."},
 {"property": "C21", "status": "partial", "theorems": ["Verif.Time.C21_timecount_round_trip_partial", "Verif.Time.C21_false_below_a_millisecond"], "note": "False of the code for 0 < t < 1 ms: such a time is written as \"0None\". Proved for t = 0 and t >= 1 ms, below 2^53 ms where float is exact."},
 {"property": "C22", "status": "proved", "theorems": ["Verif.Time.C22_text_order_is_time_order", "Verif.Time.C22_false_from_a_hundred_hours"], "note": "The second theorem shows that the bound of 100 hours is needed."},
 {"property": "C23", "status": "partial", "theorems": ["Verif.Doc.C23_segment_leaves_partial", "Verif.Doc.C23_segment_exists", "Verif.Doc.overlaps_iff", "Verif.Doc.C23_false_text_order"], "note": "All documents that obey the schema, on a clock or media time base, in which no element is judged badly timed and no p or span mixes spans with text of its own. For badly timed elements (text comparison) the claim is false, with a witness."},
 {"property": "C24", "status": "partial", "theorems": ["Verif.Doc.C24_segment_shows_the_same_partial", "Verif.Doc.C24_false_mixed_content", "Verif.Doc.C24_false_below_a_millisecond"], "note": "As C23, for times in whole milliseconds; mixed content and finer times are counterexamples."},
 {"property": "C25", "status": "proved", "theorems": ["Verif.Doc.C25_no_empty_containers"], "note": ""},
 {"property": "C26", "status": "proved", "theorems": ["Verif.Doc.C26_prefix_injective", "Verif.Doc.C26_segment_identifiers"], "note": ""},
 {"property": "C27", "status": "proved", "theorems": ["Verif.Doc.C27_content_in_order", "Verif.Doc.C27_body_identifiers_unique", "Verif.Doc.C27_document_identifiers_unique", "Verif.Doc.C27_false_unprefixed_styles", "Verif.Doc.C27_false_body_style"], "note": "The two _false_ theorems record what the splicer does not guarantee: unprefixed style identifiers can collide, and the body style of later segments is lost."},
 {"property": "C28", "status": "partial", "theorems": ["Verif.Doc.C28_resegmented_shows_active_partial", "Verif.Doc.C28_false_open_end"], "note": "Every reachable sequence, every window, open or closed at either end, with bounds in whole milliseconds. The held documents are restricted as in C23/C24 (no badly timed elements, no mixed content, whole milliseconds) and the segmenter must have copied every referenced style and region. A window without an end needs held documents with ends: without one the document is lost (C28_false_open_end)."},
 {"property": "C29", "status": "proved", "theorems": ["Verif.Style.C29_total", "Verif.Style.C29_succeeds_iff", "Verif.Style.C29_error_is_true", "Verif.Style.C29_reachable_exactly_once", "Verif.Style.C29_order_gives_priority", "Verif.Style.C29_history_independent", "Verif.Style.C29_false_referring_first"], "note": "Every style sheet, reference list and history of earlier resolutions. The reading 'a referring style always precedes the styles it refers to' is false (C29_false_referring_first); the priority order is what holds."},
 {"property": "C30", "status": "proved", "theorems": ["Verif.Style.C30_specified_value", "Verif.Style.C30_inherited_step", "Verif.Style.C30_inherited_chain", "Verif.Style.C30_not_inherited", "Verif.Style.C30_region_value", "Verif.Style.C30_line_height", "Verif.Style.C30_document_specified", "Verif.Style.C30_document_value", "Verif.Style.C30_document_one_region"], "note": "For chains of any length and for every element of a validated document; regions count only if no element on the way specifies the attribute, the outermost first."},
 {"property": "C31", "status": "partial", "theorems": ["Verif.Style.C31_font_size_is_product_partial", "Verif.Style.C31_always_cells", "Verif.Style.C31_document_cells", "Verif.Style.C31_document_font_size_partial", "Verif.Style.C31_false_deferred"], "note": "False when a p with a percentage is in a region and an element outside the region has a percentage too: the region's size is then ignored (C31_false_deferred). Proved for all other chains, and for every p and span of a validated document without nested region attributes. Exact rationals instead of floats."},
 {"property": "C32", "status": "partial", "theorems": ["Verif.Style.C32_computed_style_ignores_siblings_partial", "Verif.Style.C32_p_and_span_restore_the_stack", "Verif.Style.C32_region_afterwards", "Verif.Style.C32_recorded_styles_suffice", "Verif.Style.C32_false_styles", "Verif.Style.C32_false_region"], "note": "False as stated: a div leaves its styles on the stack and a region attribute resets the region to none. Proved: p and span restore the stack; with unnested region attributes, region and computed style depend on ancestors only."},
 {"property": "C33", "status": "proved", "theorems": ["Verif.Node.C33_new_iff", "Verif.Node.C33_first_is_new", "Verif.Node.C33_repeat_is_not_new", "Verif.Node.C33_forgotten_after_window", "Verif.Node.C33_exactly_once"], "note": "Every delivery history over any number of sequences. A document is forgotten after 100 newer ones of its sequence (C33_forgotten_after_window)."},
 {"property": "C34", "status": "proved", "theorems": ["Verif.Node.C34_output", "Verif.Node.C34_numbers", "Verif.Node.C34_in_delivery_order", "Verif.Node.C34_messages"], "note": "Every delivery history."},
 {"property": "C35", "status": "proved", "theorems": ["Verif.Node.C35_passed_on_iff", "Verif.Node.C35_switches_only_up", "Verif.Node.C35_refused_without_effect", "Verif.Node.C35_uniform_not_refused", "Verif.Node.C35_selected_may_lower_token"], "note": "Every delivery history. The selected sequence may lower its own token and stays selected (C35_selected_may_lower_token)."},
 {"property": "C36", "status": "proved", "theorems": ["Verif.Node.C36_distributes", "Verif.Node.C36_exactly_once"], "note": "Every delivery history."},
 {"property": "C37", "status": "partial", "theorems": ["Verif.Node.C37_everything_moves_partial", "Verif.Node.C37_shown_later_partial", "Verif.Node.C37_messages_passed_on", "Verif.Node.C37_node_emits_retimed", "Verif.Node.C37_node_emits_all", "Verif.Node.C37_false_duration", "Verif.Node.C37_false_empty_container", "Verif.Node.C37_false_zero_begin", "Verif.Node.C37_false_badly_timed", "Verif.Node.C37_false_microseconds", "Verif.Node.C37_false_smpte", "Verif.Node.C37_false_hundred_hours"], "note": "Every tree of whole-millisecond times below 100 h whose elements meet movableIn (no empty containers, no zero begins on containers, no text-order mistakes), and no dur without begin when all leaves are timed. Outside these the code does not shift exactly: the C37_false_* witnesses."},
 {"property": "C38", "status": "proved", "theorems": ["Verif.Node.C38_delayed_unchanged", "Verif.Node.C38_in_arrival_order", "Verif.Node.C38_same_instant_may_swap"], "note": "Every arrival schedule and every reactor that respects due times. Twisted gives no order among calls due at the same instant (C38_same_instant_may_swap). Websocket carriage; filesystem and direct carriage do not delay."},
 {"property": "C39", "status": "proved", "theorems": ["Verif.Node.C39_numbers_and_windows", "Verif.Node.C39_each_instant_once", "Verif.Node.C39_segments_show_active"], "note": "Every schedule of deliveries and timer calls, any failing extractions. The content part assumes of the documents what Doc.Source.Good lists (see C28)."},
 {"property": "C40", "status": "proved", "theorems": ["Verif.Node.C40_media_time", "Verif.Node.C40_any_reference"], "note": "Every reference."},
 {"property": "C41", "status": "proved", "theorems": ["Verif.Node.C41_holds_first_sequence_only", "Verif.Node.C41_refuses_other_sequences", "Verif.Node.C41_held_documents"], "note": "Every delivery history."},
 {"property": "C42", "status": "partial", "theorems": ["Verif.Dedup.C42_appearance_kept_partial", "Verif.Dedup.C42_no_reference_added", "Verif.Dedup.replaced_keepFirst", "Verif.Dedup.C42_node_emits_deduplicated", "Verif.Dedup.C42_false_precedence", "Verif.Dedup.C42_false_style_reference", "Verif.Dedup.C42_false_nested_repeats", "Verif.Dedup.C42_false_bar", "Verif.Dedup.C42_false_region_repeats", "Verif.Dedup.C42_told_apart_partial", "Verif.Dedup.C42_false_foreign_attributes"], "note": "Proved for every document meeting Clean: no style-to-style references, no nested repeats, a hash without collisions on the texts that occur, values without the separators. Outside: the C42_false_* witnesses; in particular repeated references change precedence and style-to-style references are lost. Elements with at most one foreign attribute are told apart exactly (C42_told_apart_partial); two are ambiguous."},
 {"property": "C43", "status": "partial", "theorems": ["Verif.Convert.C43_text_kept", "Verif.Convert.C43_converts_iff", "Verif.Convert.C43_shown_alike_partial", "Verif.Convert.C43_structure_kept", "Verif.Convert.C43_false_container_times", "Verif.Convert.C43_false_nested_clock_times", "Verif.Convert.C43_false_microseconds", "Verif.Convert.C43_false_body_style", "Verif.Convert.C43_false_nesting_and_early_times", "Verif.Convert.C43_whole_document", "Verif.Convert.C43_whole_shown_alike_partial"], "note": "Text, structure and convertibility for every tree. Timing for every tree whose times are on p and span only, in whole milliseconds, and on a clock time base not nested inside elements with a begin; the C43_false_* witnesses show the code fails outside."},
 {"property": "C44", "status": "partial", "theorems": ["Verif.Fs.C44_read_back_partial", "Verif.Fs.C44_times", "Verif.Fs.C44_appended_partial", "Verif.Fs.C44_false_comma", "Verif.Fs.C44_false_number_reused", "Verif.Fs.C44_false_names_clash", "Verif.Fs.C44_false_no_availability", "Verif.Fs.Encoding.C113_false_not_ascii"], "note": "Names are the default patterns. The C44_false_* witnesses show what happens outside: a comma in the identifier makes the manifest unreadable, a number written twice or two sequences with clashing names hand on the wrong content, a document without availability time is never handed on. For content that is bytes or ASCII text (C113_plain_as_before); other text raises and is not listed (C113_false_not_ascii)."},
 {"property": "C45", "status": "proved", "theorems": ["Verif.Fs.C45_crash", "Verif.Fs.C45_false_number_reused", "Verif.Fs.C45_false_rotation", "Verif.Fs.C45_false_tail", "Verif.Fs.Encoding.C113_crash"], "note": "Crash of the process, not of the operating system: characters reach the files in the order written. Rotation, re-used numbers and reading an unfinished last line break it (witnesses). With calls that raise because of other than ASCII text: C113_crash."},
 {"property": "C46", "status": "proved", "theorems": ["Verif.Fs.C46_keeps_latest", "Verif.Fs.C46_exactly_latest", "Verif.Fs.C46_catches_up", "Verif.Fs.C46_false_rewritten", "Verif.Fs.C46_false_failure"], "note": "Every interleaving. A file written again under the same name is removed although newest; an OSError ends the deleting thread (witnesses)."},
 {"property": "C47", "status": "proved", "theorems": ["Verif.Ws.C47_subscribers", "Verif.Ws.C47_publishers", "Verif.Ws.C47_false_delay_order"], "note": "Publication of delayed data is the moment the reactor runs the call; delayed data can be overtaken (witness). Consumer refusals (UnexpectedSequenceIdentifierError) are not modelled."},
 {"property": "C48", "status": "proved", "theorems": ["Verif.Wrap.C48_wrap", "Verif.Wrap.C48_filled"], "note": "The nltk tokenizers are abstracted: a text is its sentences of words."},
 {"property": "C49", "status": "proved", "theorems": ["Verif.CmpXml.C49_elements", "Verif.CmpXml.C49_distinguishes", "Verif.CmpXml.C49_attribute_order", "Verif.CmpXml.C49_comments", "Verif.CmpXml.C49_white_space", "Verif.CmpXml.C49_texts", "Verif.CmpXml.C49_false_symmetry", "Verif.CmpXml.C49_false_text_position", "Verif.CmpXml.C49_false_cdata", "Verif.CmpXml.C49_false_surrounding_white_space", "Verif.CmpXml.C49_single_white_space", "Verif.CmpXml.C49_escaped_line_breaks", "Verif.CmpXml.C49_documents", "Verif.CmpXml.C49_fragments", "Verif.CmpXml.C49_quotes"], "note": "The parser (minidom) is a parameter. The wider claims (symmetry for any texts, position of text among children, CDATA, surrounding white space) are refuted by the _false_ witnesses."},
 {"property": "C50", "status": "proved", "theorems": ["Verif.Time.C50_parsed_format_is_permitted", "Verif.Time.C50_accepted_values_are_readable", "Verif.Time.C50_written_format_is_permitted", "Verif.Time.C50_validated_document_formats", "Verif.Time.C50_clock_times_read", "Verif.Time.C50_timecounts_read"], "note": "The dur attribute has no SMPTE member in its schema union."},
 {"property": "C51", "status": "proved", "theorems": ["Verif.Ids.C51_unique", "Verif.Ids.C51_no_sharing", "Verif.Ids.C51_lookup", "Verif.Ids.C51_before", "Verif.Ids.C51_false_metadata", "Verif.Ids.C51_false_after_failure"], "note": "Ids of elements other than style, region, div, p and span are not checked by the code (C51_false_metadata)."},
 {"property": "C52", "status": "proved", "theorems": ["Verif.Node.C52_blocks", "Verif.Node.C52_clock"], "note": "Every input and series of requests, for reference times below 100 h less a second (later ones raise) and non-empty blocks (an empty one raises IndexError). Style sheet and layout of the produced document are not modelled."},
 {"property": "C53", "status": "proved", "theorems": ["Verif.SegHead.C53_lookup", "Verif.SegHead.C53_finds", "Verif.SegHead.C53_false_reversed_element"], "note": "Sorted container modelled as a stable insertion into a sorted list. An element ending before it begins is returned although it is over (C53_false_reversed_element)."},
 {"property": "C54", "status": "proved", "theorems": ["Verif.SegHead.C54_segment_is_valid", "Verif.SegHead.C54_references_resolve", "Verif.SegHead.C54_regions_are_used", "Verif.SegHead.C54_false_only_used_styles"], "note": "Styles are another matter than regions: a segment may keep styles of earlier divs that nothing in it uses (C54_false_only_used_styles)."},
 {"property": "C55", "status": "partial", "theorems": ["Verif.SegHead.C55_extraction_succeeds_partial", "Verif.SegHead.C55_exact", "Verif.SegHead.C55_shown_partial", "Verif.SegHead.C55_false_gap", "Verif.SegHead.C55_false_nested_regions", "Verif.SegHead.C55_false_no_styling"], "note": "False of the code: KeyError in a gap, KeyError with nested regions, AttributeError without styling (three witnesses). C55_exact says exactly for which documents and windows extraction succeeds: head with styling and layout, and everything that elements in the window refer to is in use by the body or a p or span in the window. C55_extraction_succeeds_partial gives conditions that can be read off the document: no nested region attributes and no empty div with references. C55_shown_partial says the same of windows without a begin in which something is shown."},
 {"property": "C56", "status": "partial", "theorems": ["Verif.SegHead.C56_segment_shows_the_same_partial", "Verif.SegHead.C56_leaves_partial", "Verif.SegHead.C56_false_multiRowAlign", "Verif.SegHead.C56_false_nested_regions"], "note": "Proved for millisecond times, no mixed text and spans, and no nested region attributes, of all style attributes but multiRowAlign, which segments lose (C56_false_multiRowAlign). With nested regions text can move to another region (C56_false_nested_regions)."},
 {"property": "C57", "status": "proved", "theorems": ["Verif.Convert.C57_shown_as_written"], "note": "Every shaped tree with no body dur, no zero ends, non-negative begins."},
 {"property": "C58", "status": "partial", "theorems": ["Verif.Convert.C58_font_sizes_kept", "Verif.Convert.C58_sizes_converted", "Verif.Convert.C58_line_heights_kept_partial", "Verif.Convert.C58_false_shared_style", "Verif.Convert.C58_false_default_size", "Verif.Convert.C58_false_horizontal_size", "Verif.Convert.C58_false_zero_size"], "note": "Vertical font sizes for every document. Line heights only if elements of equal relative size agree; false otherwise (witnesses). Exact rationals in place of floats."},
 {"property": "C59", "status": "partial", "theorems": ["Verif.SegHead.C59_resegmented_looks_alike_partial", "Verif.SegHead.C59_all_or_nothing_partial", "Verif.SegHead.C59_exact_partial", "Verif.SegHead.C59_false_gap", "Verif.SegHead.C59_false_body_style", "Verif.SegHead.C59_false_geometry"], "note": "Proved when the held documents have millisecond times, no mixed text and spans, no nested region attributes, no style on body, no reference to a style or region that is not in use in a window in which a p or span is (met by documents with one div and by those whose divs refer to nothing, safe_of), and the same cell resolution and extent, for all style attributes but multiRowAlign. Each of gaps, body styles and geometry is needed: see the _false theorems. Windows may be open at either end; bounds given are below a hundred hours. Without the condition on references, without those on styling and layout, for documents that last for ever and without the bound, C59_all_or_nothing_partial: what becomes of each held document is all or nothing; C59_exact_partial says which: all if and only if what is referred to is in use in the document's window."},
 {"property": "C60", "status": "partial", "theorems": ["Verif.Adapt.C60_joined_iff", "Verif.Adapt.C60_joined_input_iff", "Verif.Adapt.C60_adapters_accepted", "Verif.Adapt.C60_adapters_refused", "Verif.Adapt.C60_arrives_partial", "Verif.Adapt.C60_arrives_adapters_partial", "Verif.Adapt.C60_false_middle", "Verif.Adapt.C60_false_any", "Verif.Adapt.C60_false_ebuttd", "Verif.Adapt.C60_configured", "Verif.Adapt.C60_configured_refused", "Verif.Adapt.C60_configured_none", "Verif.Adapt.C60_written"], "note": "False inside adapter lists (only the ends are compared), across in-memory carriages (which take anything) and for EBU-TT Live to EBU-TT-D. Reading and writing of XML is a parameter (Codec)."},
 {"property": "C61", "status": "partial", "theorems": ["Verif.Adapt.C61_text_and_back", "Verif.Adapt.C61_announced", "Verif.Adapt.C61_filesystem", "Verif.Adapt.C61_websocket", "Verif.Adapt.C61_false_message", "Verif.Adapt.C61_filesystem_xml_partial", "Verif.Fs.Travel.C113_arrives_iff"], "note": "Messages lose their availability time when turned into text (C61_false_message). That a document survives writing and reading is an assumption about the XML layer (Survives). C61_filesystem_xml_partial has no such assumption: well-formed trees without text beside elements arrive as the same trees, through files. Text outside ASCII does not pass every carriage: see C113."},
 {"property": "C62", "status": "partial", "theorems": ["Verif.Adapt.C62_sends_what_it_got_partial", "Verif.Adapt.C62_false"], "note": "False when a retiming, handover or deduplicating node changed a document that still carries the text it was read from: the old text is sent."},
 {"property": "C63", "status": "partial", "theorems": ["Verif.Adapt.C63_no_clash", "Verif.Adapt.C63_delay_reaches_the_end", "Verif.Adapt.C63_false_two_delays", "Verif.Adapt.C63_false_encoder"], "note": "False for two buffer delays in one in-memory chain and for an encoder behind a node or adapter that made a text; proved for all other chains."},
 {"property": "C64", "status": "partial", "theorems": ["Verif.App.C64_handed_to_last_reader", "Verif.App.C64_nobody_reads", "Verif.App.C64_false_two_readers", "Verif.App.C64_ends", "Verif.App.C64_ends_in_order", "Verif.App.C64_false_cycle", "Verif.App.C64_line_is_chain", "Verif.App.C64_nobody_fails", "Verif.App.C64_all_read"], "note": "Only the last configured reader gets anything; with no reader writing fails; cycles never end. Exact characterisations of each are proved."},
 {"property": "C65", "status": "proved", "theorems": ["Verif.App.C65_starts_iff", "Verif.App.C65_wired_as_configured", "Verif.App.C65_any_order"], "note": "For all lists of components in all orders."},
 {"property": "C66", "status": "partial", "theorems": ["Verif.App.C66_found_iff_partial", "Verif.App.C66_false_gap"], "note": "Right exactly if no node slot before the one asked for is left out."},
 {"property": "C67", "status": "proved", "theorems": ["Verif.App.C67_resolves"], "note": "Stated for any alternation of plain pieces and variables, against a separate description of what they mean."},
 {"property": "C68", "status": "partial", "theorems": ["Verif.Xml.C68_visible_partial", "Verif.Xml.C68_texts_partial", "Verif.Xml.C68_kept_exactly_partial", "Verif.Xml.C68_false_mixed", "Verif.Xml.C68_false_grows"], "note": "Tags, attributes and visible characters always survive; texts exactly only where text is not beside other content. False as stated: documents are printed with indentation, which inserts white space into mixed content, more with every hop. The printer and the parser are those of the standard library for the part of XML that is printed; the binding's treatment of texts is modelled by its effect."},
 {"property": "C69", "status": "partial", "theorems": ["Verif.Size.C69_font_sizes", "Verif.Size.C69_extents", "Verif.Size.C69_origins", "Verif.Size.C69_origins_partial", "Verif.Size.C69_false_negative_origin", "Verif.Size.C69_line_heights", "Verif.Size.C69_line_height_values", "Verif.Size.C69_one_unit", "Verif.Size.C69_resolution", "Verif.Size.C69_resolution_positive"], "note": "Exactly the well-formed texts are taken, for every kind of size. False for origins with a minus sign, which is dropped. Numbers are exact where the program uses floats; only ASCII digits."},
 {"property": "C70", "status": "partial", "theorems": ["Verif.Tt.C70_accepted_iff", "Verif.Tt.C70_pixels_need_extent_partial", "Verif.Tt.C70_pixels_convert_partial", "Verif.Tt.C70_false_line_height", "Verif.Tt.C70_false_zero_extent"], "note": "Accepted documents are characterised exactly. False as stated: line heights in pixels are not checked, and an extent of zero is accepted."},
 {"property": "C71", "status": "partial", "theorems": ["Verif.Tt.C71_parameters_kept_partial", "Verif.Tt.C71_copy_accepted", "Verif.Tt.C71_false_space"], "note": "All parameters are copied except xml:space, which is lost."},
 {"property": "C72", "status": "partial", "theorems": ["Verif.Tt.C72_takes_exactly", "Verif.Tt.C72_takes_its_document_partial", "Verif.Tt.C72_new_documents_partial", "Verif.Tt.C72_false_gps", "Verif.Tt.C72_false_smpte"], "note": "Which documents a sequence takes is proved exactly. That it takes the document it was made from, and what it creates, for local, utc and media times. False for gps times, for which there is no clock, and for smpte times, whose new documents lack parameters. Taking over a group is modelled in Verif.Seq."},
 {"property": "C73", "status": "partial", "theorems": ["Verif.Convert.C73_looks_alike_partial", "Verif.Convert.C73_false_nested_styles", "Verif.Convert.C73_false_multi_row_align", "Verif.Convert.C73_false_padding", "Verif.Convert.C73_false_body_style"], "note": "For all documents whose styles do not refer to styles, without style on body and without nested region attributes; all attributes but multiRowAlign and padding. The C73_false_* witnesses show the claim fails for what is left out. The printed percentage in generated identifiers is assumed to determine the percentage."},
 {"property": "C74", "status": "partial", "theorems": ["Verif.Convert.C74_font_sizes_partial", "Verif.Convert.C74_line_heights_partial", "Verif.Convert.C74_false_width", "Verif.Convert.C74_false_shared_line_height", "Verif.Convert.C74_false_default_line_height"], "note": "The height of the font, for every p and span of every document without styles named like generated ones; the line height where a style was generated and elements of the same relative size agree on it. The width of the font is lost, and so are line heights in the cases of the two witnesses. Sizes are exact rationals."},
 {"property": "C75", "status": "partial", "theorems": ["Verif.Convert.C75_references", "Verif.Convert.C75_unique_identifiers_partial", "Verif.Convert.C75_false_clash"], "note": "Every reference is defined; identifiers are unique unless a style is named like a generated one."},
 {"property": "C76", "status": "partial", "theorems": ["Verif.Convert.C76_regions", "Verif.Convert.C76_colours", "Verif.Convert.C76_converts", "Verif.Convert.C76_false_pixels", "Verif.Convert.C76_false_zero", "Verif.Convert.C76_false_empty_div"], "note": "Regions in cells and percent for all resolutions, all colours, and which documents are converted. Regions in pixels stay in pixels, which mean nothing in EBU-TT-D; a font size of zero stops the conversion; an empty div is passed on although EBU-TT-D has none."},
 {"property": "C77", "status": "partial", "theorems": ["Verif.Clocks.C77_time_of_day", "Verif.Clocks.C77_between_readings", "Verif.Clocks.C77_keeps_time_partial", "Verif.Clocks.C77_fixed_mode", "Verif.Clocks.C77_refused", "Verif.Clocks.C77_adjusted", "Verif.Clocks.C77_adjusted_to", "Verif.Clocks.C77_false_media_goes_back", "Verif.Clocks.C77_false_fixed_without_time"], "note": "Within a day. At midnight every clock goes back by a day, media clocks too (C77_between_readings says by how much for any two instants). In fixed-time mode without a registered time a clock says None. Changes of the machine's clock and summer time are not modelled."},
 {"property": "C78", "status": "partial", "theorems": ["Verif.Clocks.C78_given_times", "Verif.Clocks.C78_default_times", "Verif.Clocks.C78_media_times_partial", "Verif.Clocks.C78_clock_times", "Verif.Clocks.C78_messages", "Verif.Clocks.C78_manifest_partial", "Verif.Clocks.C78_false_media_loops", "Verif.Clocks.C78_false_one_manifest"], "note": "Which time is used is proved exactly for every series of emissions. Media times loop at midnight, against the documentation in the code, and all sequences of a carriage share the manifest of the first."},
 {"property": "C79", "status": "partial", "theorems": ["Verif.Clocks.C79_delay", "Verif.Clocks.C79_live_partial", "Verif.Clocks.C79_delay_stays", "Verif.Clocks.C79_false_late_document", "Verif.Clocks.C79_false_later_start", "Verif.Clocks.C79_false_midnight"], "note": "C79_delay says exactly how late each segment is. It is on time with an init document and immediate start; it stays late for ever by the number of timer calls before the first document, and by the time until begin_output; after midnight no segment shows anything. The reactor is taken to be on time."},
 {"property": "C80", "status": "partial", "theorems": ["Verif.Clocks.C80_clock_names", "Verif.Clocks.C80_times", "Verif.Clocks.C80_begin_output_partial", "Verif.Clocks.C80_resequencers", "Verif.Clocks.C80_encoder_current", "Verif.Clocks.C80_encoder_given", "Verif.Clocks.C80_false_past", "Verif.Clocks.C80_false_auto"], "note": "For utc and local clocks. A begin_output that has passed stops the program from starting; the clock auto fails for all nodes but consumers. Making and starting the node are taken to be at one instant."},
 {"property": "C81", "status": "proved", "theorems": ["Verif.Ws.C81_subscribers", "Verif.Ws.C81_publishers", "Verif.Ws.C81_all_delivered", "Verif.Ws.C81_all_published", "Verif.Ws.C81_false_lost", "Verif.Ws.C81_false_refused"], "note": "A connection carries messages in order; each end notices a loss by itself. What is on its way when a connection is lost does not arrive (C81_false_lost), and clients do not connect again; a refusal cuts a client off (C81_false_refused)."},
 {"property": "C82", "status": "partial", "theorems": ["Verif.Adapt.C82_subscribers", "Verif.Adapt.C82_subscribers_all", "Verif.Adapt.C82_publishers", "Verif.Adapt.plain_survives", "Verif.Adapt.C82_false_inline"], "note": "Proved for every schedule and for documents that survive printing and parsing; plain_survives gives these for every well-formed tree in which elements with text contain only text. Documents with text beside elements do not survive (C82_false_inline, see C68). Which documents are valid is a parameter of the codec; messages other than documents are not followed."},
 {"property": "C83", "status": "partial", "theorems": ["Verif.Ui.C83_increasing_partial", "Verif.Ui.C83_consecutive_partial", "Verif.Ui.C83_own_connection_partial", "Verif.Ui.C83_false_scheduled", "Verif.Ui.C83_false_offline", "Verif.Ui.C83_false_reply", "Verif.Ui.C83_false_recreated", "Verif.Ui.C83_false_selected"], "note": "Increasing numbers for every history in which the sequence is not created again or removed; no gaps if documents are submitted only with a connection; own connection if the page is not pointed to another sequence while connected. Each condition is needed: without a connection, or after any message from the server, numbers are counted and the documents lost; creating a sequence again restarts its numbers; a sequence selected while connected is sent on the connection of the other one. Scheduled documents are never sent: the button has no handler."},
 {"property": "C84", "status": "partial", "theorems": ["Verif.Ui.C84_document_partial", "Verif.Ui.C84_sent_partial", "Verif.Ui.C84_server_partial", "Verif.Ui.C84_enter", "Verif.Ui.C84_loop_ends", "Verif.Ui.C84_false_hang", "Verif.Ui.C84_false_ampersand", "Verif.Ui.C84_false_markup"], "note": "For all fields and lines without markup characters. What is typed is not escaped: an ampersand makes the document unreadable and markup becomes markup. With zero lines or an empty field for their number the loop of the Enter key does not end. Characters that XML forbids and ]]> are not looked at by the model's reader."},
 {"property": "C85", "status": "partial", "theorems": ["Verif.Time.C85_read_by_own_time_base", "Verif.Time.C85_reading_unique", "Verif.Time.C85_no_time_base", "Verif.Time.C85_parse_ends", "Verif.Time.C85_made_partial", "Verif.Time.C85_false_fresh_thread", "Verif.Time.C85_false_ebuttd"], "note": "EBU-TT Live documents: for all schedules and threads. Making a value in a thread other than the importing one, before anything was parsed there, raises an AttributeError whatever the value. EBU-TT-D documents with any timing attribute are never read: their time base does not reach the context and the classes raise a KeyError."},
 {"property": "C86", "status": "partial", "theorems": ["Verif.Convert.C86_played_is_active_partial", "Verif.Convert.C86_segment_played_partial", "Verif.Convert.C86_whole_run_partial", "Verif.Convert.C86_false_nested", "Verif.Convert.C86_false_before_zero"], "note": "Assumes of the held documents what C28 does (structure of the schema, no badly timed elements, no spans mixed with text, whole milliseconds), and in addition no div in div and no span in span, and with clock times windows from media time zero on. Outside these the conversion raises and nothing of the segment is shown (C86_false_nested, C86_false_before_zero)."},
 {"property": "C87", "status": "partial", "theorems": ["Verif.Ws.Legacy.C87_answered_partial", "Verif.Ws.Legacy.C87_every_message_partial", "Verif.Ws.Legacy.C87_only_senders", "Verif.Ws.Legacy.C87_false_not_ascii", "Verif.Ws.Legacy.C87_clients_never_leave"], "note": "A message is not answered if the text of the node's exception has other than ASCII characters: str(e) raises in the handler (C87_false_not_ascii). Closed connections stay in the server's list (C87_clients_never_leave)."},
 {"property": "C88", "status": "partial", "theorems": ["Verif.Ws.Legacy.C88_delivery_partial", "Verif.Ws.Legacy.C88_client_listens", "Verif.Ws.Legacy.C88_handed_on", "Verif.Ws.Legacy.C88_registered_are_open", "Verif.Ws.Legacy.C88_false_not_ascii", "Verif.Ws.Legacy.C88_false_pause", "Verif.Ws.Legacy.C88_false_configured", "Verif.Ws.Legacy.C88_stopped"], "note": "Channels with other than ASCII characters cannot be subscribed to: the log line raises first (C88_false_not_ascii). Pausing a client has no effect (C88_false_pause). An input made from the configuration has no channels and is never sent anything (C88_false_configured)."},
 {"property": "C89", "status": "partial", "theorems": ["Verif.Node.C89_sequence_moves", "Verif.Node.C89_behind_the_node_partial", "Verif.Node.C89_false_same_arrival"], "note": "Assumes of the documents what C37 does (the code does not retime others as intended). Where both consumers get a document at the same time, a document without times is not delayed at all if it arrives later than the delay (C89_false_same_arrival)."},
 {"property": "C90", "status": "proved", "theorems": ["Verif.Walk.C90_calls", "Verif.Walk.C90_observed", "Verif.Walk.C90_tour_once", "Verif.Walk.C90_in_order", "Verif.Walk.C90_everything", "Verif.Walk.C90_outcome", "Verif.Walk.C90_results", "Verif.Walk.C90_not_ended", "Verif.Walk.C90_finder", "Verif.Walk.C90_finder_on_leaf", "Verif.Walk.C90_identifiers", "Verif.Walk.C90_timing", "Verif.Walk.C90_segment"], "note": "An element that is broken off is not ended (C90_not_ended): hooks must not rely on it. C90_finder to C90_segment show that the recursive functions by which these operations are modelled elsewhere are the traversal run with their hooks."},
 {"property": "C91", "status": "proved", "theorems": ["Verif.Node.C91_all_taken", "Verif.Node.C91_shown", "Verif.Node.C91_takes_over", "Verif.Node.C91_single_producer", "Verif.Node.C91_false_out_of_order", "Verif.Node.C91_false_time_bases"], "note": "Outside the stated conditions: a producer that sends out of order has its older document shown behind the node, because the node numbers by arrival (C91_false_out_of_order), and a consumer refuses documents of a producer with another time base, which the node passes on all the same (C91_false_time_bases). The documents' computed times are taken as the same in front of and behind the node."},
 {"property": "C92", "status": "partial", "theorems": ["Verif.Seq.C92_logging_harmless", "Verif.Print.C92_written_iff", "Verif.Print.C92_all_text", "Verif.Print.C92_times", "Verif.Print.C92_discarded_silent", "Verif.Seq.C92_false_metadata", "Verif.Print.C92_up_to"], "note": "Proved for documents whose paragraphs and spans have no metadata element in them; with one the property is false (C92_false_metadata): writing the document raises AttributeError in the middle of the update, so that the call fails although the document is held, and the next document fails as well after the first has been cut."},
 {"property": "C93", "status": "partial", "theorems": ["Verif.Fs.C93_safe_partial", "Verif.Fs.C93_catches_up_partial", "Verif.Fs.C93_all_partial", "Verif.Fs.C93_dead", "Verif.Fs.C93_false_half_line", "Verif.Fs.C93_false_number_reused", "Verif.Fs.C93_false_rotation", "Verif.Adapt.C93_documents_partial", "Verif.Adapt.C93_all_documents_partial"], "note": "Proved for distinct sequence numbers, no rotating buffer, and a reader that does not look while the last line of the manifest is incomplete; false without each of these (the C93_false theorems): half a line ends the reading for good, a reused number is handed on half, a removed file ends the reading. Opening and reading a document file is one step. C93_documents_partial: the node behind the reader gets the trees that were sent, printed and parsed."},
 {"property": "C94", "status": "partial", "theorems": ["Verif.App.Boot.C94_files", "Verif.App.Boot.C94_files_any_order", "Verif.App.Boot.C94_websocket_gets_nothing", "Verif.App.Boot.C94_clients", "Verif.App.Boot.C94_tail", "Verif.App.Boot.C94_false_websocket", "Verif.App.Boot.C94_false_order"], "note": "True of filesystem outputs (C94_files). False of websocket outputs: everything is emitted before the reactor runs, hence before anybody can connect, so that nobody ever gets anything (C94_websocket_gets_nothing, for all orders and histories); with a delay node in between it depends on the order (C94_false_order). What comes later from other inputs goes to exactly the clients connected to its output (C94_clients). With tail the start never returns and nothing else runs (C94_tail). Nodes that raise are not considered."},
 {"property": "C95", "status": "partial", "theorems": ["Verif.Abc.C95_bases_partial", "Verif.Abc.C95_handed_on_partial", "Verif.Abc.C95_methods", "Verif.Abc.C95_order", "Verif.Abc.C95_exact", "Verif.Abc.C95_registry_partial", "Verif.Abc.C95_registry_stays", "Verif.Abc.C95_false", "Verif.Abc.C95_false_not_a_type", "Verif.Abc.C95_false_derived_adapter", "Verif.Abc.C95_false_failed_statement", "Verif.Abc.C95_false_any", "Verif.Abc.C95_interfaces", "Verif.Abc.C95_register"], "note": "Which class statements work is proved exactly (C95_exact). The members required by the bases of a class themselves are there and pass the check (C95_bases_partial); no abstract method is left (C95_methods). False of members required further up: a node derived from AbstractCombinedNode need not name its types (C95_false), nor need they be types, unless every abstract class in between repeats the requirement (C95_handed_on_partial). Adapters are found if they derive directly from the interface and no class statement failed (C95_registry_partial and the C95_false witnesses). Methods expects and provides are not overridden in the model."},
 {"property": "C96", "status": "partial", "theorems": ["Verif.Msg.C96_carried", "Verif.Msg.C96_arrives_iff", "Verif.Msg.C96_read_back", "Verif.Msg.C96_names", "Verif.Msg.C96_travels_partial", "Verif.Msg.C96_page_partial", "Verif.Msg.C96_false_ignored", "Verif.Msg.C96_false_element", "Verif.Msg.C96_false_document", "Verif.Msg.C96_false_rest", "Verif.Msg.C96_false_type", "Verif.Msg.C96_false_page"], "note": "True of payloads that are text (C96_arrives_iff says exactly when a message arrives, C96_travels_partial covers all journeys). False of payloads with elements, of which white space or the first piece of text is read (C96_false_element, C96_false_rest); no message gets past a deduplicator, resequencer or encoder (C96_false_ignored); the adapter takes every message for an authors group control request (C96_false_type); the availability time is lost. Requests typed with & or < or left empty are refused by the server (C96_false_page). C96_names resolves the prefixes that are written with the declarations that are written. Reading with namespace prefixes other than the usual ones and characters XML does not allow is not modelled."},
 {"property": "C97", "status": "partial", "theorems": ["Verif.Doc.C97_segment_lines_partial", "Verif.Doc.C97_segment_words_partial", "Verif.Doc.C97_resegmented_lines_partial", "Verif.Doc.C97_resegmented_words_partial", "Verif.Doc.C97_false_blank_span", "Verif.Doc.C97_false_mixed", "Verif.Doc.C97_false_hundred_hours"], "note": "True of paragraphs whose text is all their own or all in spans, with line breaks and white space between the spans. False of spans of white space, which are dropped so that words are glued together (C97_false_blank_span; the words and breaks stay, C97_segment_words_partial, C97_resegmented_words_partial), of text beside timed spans (C97_false_mixed) and from a hundred hours on (C97_false_hundred_hours)."},
 {"property": "C98", "status": "partial", "theorems": ["Verif.Convert.C98_played_lines_partial", "Verif.Convert.C98_played_words_partial", "Verif.Convert.C98_segment_played_partial", "Verif.Convert.C98_whole_run_partial", "Verif.Convert.C98_false_forever"], "note": "True, under the same conditions on paragraphs as C97 and for media times and clocks as in C86: for one window, for the segment of each state of a resequencer and for all the segments of a course of events together. False of text beside timed spans: after the conversion it is shown for ever (C98_false_forever)."},
 {"property": "C99", "status": "partial", "theorems": ["Verif.Node.C99_every_document", "Verif.Node.C99_every_tick", "Verif.Node.C99_segments", "Verif.Node.C99_active", "Verif.Convert.C99_played_partial"], "note": "True for documents of one clock and authors group whose end, if any, comes after their begin. What is read (C99_played_partial) under the conditions of C97 and C98; the other parts without them."}
]}
