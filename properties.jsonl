{"id": "C01", "title": "At most one document of a sequence is active at any instant (R14)", "statement": "After any series of add_document calls with documents whose computed end is not before their computed begin and not at time zero, whatever each call did (accepted, discarded the document, or raised), no instant t lies in the resolved interval [resolved_begin_time, resolved_end_time) of two different documents held by the sequence.", "quantifier": "every finite series of add_document calls, in any order of sequence numbers and times, and every instant", "why_tests_cant": "Interleavings of late, early, overlapping, open ended and colliding documents are unbounded; each test fixes one arrival order.", "anchors": ["ebu_tt_live/documents/ebutt3.py: EBUTT3DocumentSequence.add_document", "ebu_tt_live/documents/ebutt3.py: EBUTT3Document.resolved_begin_time", "ebu_tt_live/documents/ebutt3.py: EBUTT3Document.resolved_end_time"]}
{"id": "C02", "title": "The active document is the newest one that has begun", "statement": "After any series of add_document calls none of which raised an unexpected error, the document active at instant t is the document with the greatest sequence number among all accepted-for-processing documents that begin at or before t, provided its own computed end is after t; otherwise no document is active at t. Asking for the resolved times of a document that was never added or was refused raises.", "quantifier": "every finite history of compatible documents and every instant", "why_tests_cant": "A statement about the whole history: each new document may trim, override or be discarded because of any earlier one.", "anchors": ["ebu_tt_live/documents/ebutt3.py: EBUTT3DocumentSequence.add_document", "ebu_tt_live/documents/ebutt3.py: EBUTT3DocumentSequence._insert_or_discard", "ebu_tt_live/documents/ebutt3.py: EBUTT3DocumentSequence._override_sequence"]}
{"id": "C03", "title": "Presentation does not depend on delivery order", "statement": "If the same documents are added to two sequences in two different orders and neither run raises an unexpected error, the same document is active at every instant in both sequences.", "quantifier": "every finite set of documents with distinct sequence numbers, every pair of arrival orders, every instant", "why_tests_cant": "The number of permutations is factorial and the times are unbounded; tests sample a few orders.", "anchors": ["ebu_tt_live/documents/ebutt3.py: EBUTT3DocumentSequence.add_document"]}
{"id": "C04", "title": "Resolved times are exactly the trimmed computed times", "statement": "For every document held by the sequence, resolved_begin_time is its computed begin and resolved_end_time is the smaller of its computed end and the begin of the next document of the sequence (or undefined when it is the last and open ended).", "quantifier": "every reachable sequence state and every document in it", "why_tests_cant": "Each insertion rewrites events of neighbours; correctness of all resolved ends is an invariant over all histories.", "anchors": ["ebu_tt_live/documents/ebutt3.py: EBUTT3DocumentSequence.resolved_end_time", "ebu_tt_live/documents/ebutt3.py: EBUTT3DocumentSequence.resolved_begin_time", "ebu_tt_live/documents/ebutt3.py: EBUTT3DocumentSequence._insert_or_discard"]}
{"id": "C05", "title": "Sequence order and time order agree", "statement": "Among the documents held by a sequence, a greater sequence number always means a strictly later begin time.", "quantifier": "every reachable sequence state and every pair of held documents", "why_tests_cant": "Invariant over unbounded histories.", "anchors": ["ebu_tt_live/documents/ebutt3.py: EBUTT3DocumentSequence.add_document", "ebu_tt_live/documents/ebutt3.py: EBUTT3DocumentSequence._override_sequence"]}
{"id": "C06", "title": "Sequence number collisions are always refused without effect", "statement": "add_document raises SequenceNumberCollisionError for a document with matching identifiers exactly when a held document has the same sequence number, and then neither the documents, the timeline nor any resolved time changes.", "quantifier": "every sequence state and every document", "why_tests_cant": "Needs all states reachable through arbitrary histories, including after overrides and discards.", "anchors": ["ebu_tt_live/documents/ebutt3.py: EBUTT3DocumentSequence._check_document_compatibility"]}
{"id": "C07", "title": "Only compatible documents enter a sequence", "statement": "A document with another sequence identifier or time base, another clock mode when the time base is clock, or a non-empty authors group identifier different from the group already adopted by the sequence is refused and changes nothing; the group identifier, once adopted from the first document that carries one, never changes.", "quantifier": "every history of add_document calls and every document", "why_tests_cant": "The adopted authors group depends on the whole history.", "anchors": ["ebu_tt_live/documents/ebutt3.py: EBUTT3DocumentSequence._check_document_compatibility"]}
{"id": "C08", "title": "Adding a compatible document never fails unexpectedly", "statement": "add_document of a compatible, well timed document either inserts it or discards it; it never raises a consistency ValueError or a TypeError.", "quantifier": "every history and every compatible document", "why_tests_cant": "Depends on the exact layout of the event timeline built by the whole history.", "anchors": ["ebu_tt_live/documents/ebutt3.py: EBUTT3DocumentSequence.add_document", "ebu_tt_live/documents/ebutt3.py: EBUTT3DocumentSequence._insert_or_discard"]}
{"id": "C09", "title": "The sequence's last number bounds every document and new documents get fresh numbers", "statement": "last_sequence_number never decreases, is at least the number of every document added without error, and new_document always returns a document whose number is greater than that of every document added or created before.", "quantifier": "every interleaving of add_document and new_document", "why_tests_cant": "A history property over unbounded interleavings.", "anchors": ["ebu_tt_live/documents/ebutt3.py: EBUTT3DocumentSequence.add_document", "ebu_tt_live/documents/ebutt3.py: EBUTT3DocumentSequence.new_document"]}
{"id": "C10", "title": "Range lookup returns exactly the documents shown in the range, in order", "statement": "lookup_range_on_timeline(begin, end) with begin not after end returns exactly the held documents whose resolved begin is before end and whose resolved end is after begin, ordered by time and sequence number and without repetition.", "quantifier": "every reachable sequence state and every range, bounded or not", "why_tests_cant": "The scan depends on the relative order of simultaneous events left by the history.", "anchors": ["ebu_tt_live/documents/ebutt3.py: TimelineUtilMixin.lookup_range_on_timeline"]}
{"id": "C11", "title": "Dropping old documents does not change the present", "statement": "discard_before(d) removes every document that began before the held document d, keeps d and all later ones, and leaves the document active at every instant from d's begin on unchanged.", "quantifier": "every reachable sequence state, every held document, every later instant", "why_tests_cant": "Quantifies over all sequence states and all later instants.", "anchors": ["ebu_tt_live/documents/ebutt3.py: EBUTT3DocumentSequence.discard_before"]}
{"id": "C12", "title": "Segment extraction reads each instant from the active document only", "statement": "extract_segment(begin, end) asks the affected documents for consecutive, non-overlapping windows inside [begin, end); the window that contains an instant t at which a document is active is the window of that document.", "quantifier": "every reachable sequence state, every range and every instant in it", "why_tests_cant": "Windows are chained through mutable state across an arbitrary number of documents.", "anchors": ["ebu_tt_live/documents/ebutt3.py: EBUTT3DocumentSequence.extract_segment"]}
{"id": "C13", "title": "Discarded documents are reported as such and never shown", "statement": "A document that add_document discards, or that a later document overrides, gets a resolved end not after its begin, is reported as discarded, is no longer held by the sequence, and is dominated by a held or overriding document with a greater number that begins no later.", "quantifier": "every history and every document discarded in it", "why_tests_cant": "History property.", "anchors": ["ebu_tt_live/documents/ebutt3.py: EBUTT3Document.discard_document", "ebu_tt_live/documents/ebutt3.py: EBUTT3Document.discarded", "ebu_tt_live/documents/ebutt3.py: EBUTT3DocumentSequence._override_sequence"]}
{"id": "C14", "title": "Computed times of every element follow the timing rules", "statement": "After validation, every timed element's computed begin is the sum of the begins on its path (never before the availability time; moved to its earliest child when it has no own begin), and its computed end is the earliest explicit end among itself and its ancestors resolved against their parents, or else the latest end of its children, undefined if any child is open ended.", "quantifier": "every document tree of any depth and width and any timing attributes and availability time", "why_tests_cant": "Trees are unbounded in depth and width; the implementation threads mutable stacks through the traversal.", "anchors": ["ebu_tt_live/bindings/validation/timing.py: TimingValidationMixin._semantic_preprocess_timing", "ebu_tt_live/bindings/validation/timing.py: TimingValidationMixin._semantic_postprocess_timing", "ebu_tt_live/bindings/validation/timing.py: BodyTimingValidationMixin"]}
{"id": "C15", "title": "Timing validation is self contained", "statement": "Validating any element leaves the shared timing context (syncbase and begin/end stacks) exactly as it found it and never raises LogicError, so siblings cannot influence each other.", "quantifier": "every element tree and every timing context", "why_tests_cant": "Stack discipline over unbounded recursion.", "anchors": ["ebu_tt_live/bindings/validation/timing.py: TimingValidationMixin._semantic_postprocess_timing", "ebu_tt_live/bindings/validation/timing.py: TimingValidationMixin._post_pop_begin", "ebu_tt_live/bindings/validation/timing.py: TimingValidationMixin._post_pop_end"]}
{"id": "C16", "title": "No element is active before it is available or after an enclosing end", "statement": "Every element's computed begin is at or after the document's availability time, and no element's computed end is later than the resolved end of any enclosing element that specifies one.", "quantifier": "every document tree, every element, every availability time", "why_tests_cant": "Unbounded trees.", "anchors": ["ebu_tt_live/bindings/validation/timing.py: TimingValidationMixin._pre_assign_begin", "ebu_tt_live/bindings/validation/timing.py: TimingValidationMixin._pre_calculate_end"]}
{"id": "C17", "title": "The document interval covers everything it shows", "statement": "If the body of a document is not badly timed, the document's computed interval contains the computed interval of every element in it that is not itself, or inside an element, excluded as badly timed; the document is then open ended exactly when its body specifies no end or duration and either has no such content or contains such an element that is open ended.", "quantifier": "every document tree", "why_tests_cant": "Unbounded trees; max/min propagate through every level.", "anchors": ["ebu_tt_live/documents/ebutt3.py: EBUTT3Document.validate", "ebu_tt_live/bindings/validation/timing.py: TimingValidationMixin._semantic_postprocess_timing"]}
{"id": "C18", "title": "Only elements that end before they begin are treated as badly timed", "statement": "An element that specifies begin and end is excluded from its container's timing exactly when its end is not after its begin.", "quantifier": "every pair of begin and end values in every permitted time format", "why_tests_cant": "The value space is infinite and mixes formats.", "anchors": ["ebu_tt_live/bindings/validation/timing.py: TimingValidationMixin._element_badly_timed"]}
{"id": "C19", "title": "Full clock times survive a round trip", "statement": "For every non-negative time t, writing t as a full clock time and reading it back gives t rounded down to a whole millisecond, and the text always has the form HH:MM:SS or HH:MM:SS.mmm.", "quantifier": "every non-negative time", "why_tests_cant": "Infinite domain.", "anchors": ["ebu_tt_live/bindings/_ebuttdt.py: FullClockTimingType.from_timedelta", "ebu_tt_live/bindings/_ebuttdt.py: FullClockTimingType.as_timedelta"]}
{"id": "C20", "title": "Limited clock times survive a round trip or are refused", "statement": "Writing a non-negative time as a limited clock time raises TimeFormatOverflowError exactly when it is 100 hours or more; otherwise reading it back gives the time rounded down to a millisecond.", "quantifier": "every non-negative time", "why_tests_cant": "Infinite domain with a boundary.", "anchors": ["ebu_tt_live/bindings/_ebuttdt.py: LimitedClockTimingType.from_timedelta", "ebu_tt_live/bindings/_ebuttdt.py: LimitedClockTimingType.as_timedelta"]}
{"id": "C21", "title": "Timecounts survive a round trip", "statement": "For every non-negative time t, writing t as a timecount and reading it back gives t rounded down to a whole millisecond.", "quantifier": "every non-negative time", "why_tests_cant": "Infinite domain; unit selection depends on which fields are zero.", "anchors": ["ebu_tt_live/bindings/_ebuttdt.py: TimecountTimingType.from_timedelta", "ebu_tt_live/bindings/_ebuttdt.py: TimecountTimingType.as_timedelta"]}
{"id": "C22", "title": "Time text order agrees with time order", "statement": "For times below 100 hours, comparing the written clock times as text gives the same answer as comparing the times at millisecond precision.", "quantifier": "every pair of times", "why_tests_cant": "Infinite domain; the badly-timed check relies on it.", "anchors": ["ebu_tt_live/bindings/_ebuttdt.py: FullClockTimingType.from_timedelta", "ebu_tt_live/bindings/validation/timing.py: TimingValidationMixin._element_badly_timed"]}
{"id": "C23", "title": "A segment contains exactly what is shown in the window, trimmed to it", "statement": "extract_segment(begin, end) of a document keeps a timed leaf exactly when its computed interval intersects [begin, end), gives it the intersection as its explicit times, and keeps the leaves in document order with unchanged text.", "quantifier": "every document tree and every window", "why_tests_cant": "Unbounded trees and windows.", "anchors": ["ebu_tt_live/documents/ebutt3_segmentation.py: EBUTT3Segmenter", "ebu_tt_live/bindings/validation/timing.py: TimingValidationMixin.is_in_segment", "ebu_tt_live/bindings/validation/timing.py: TimingValidationMixin._semantic_copy_apply_leaf_timing"]}
{"id": "C24", "title": "A segment shows the same text as the document at every instant of the window", "statement": "At every instant t with begin <= t < end, the leaves active at t in the extracted segment, after it is validated on its own, carry exactly the text, in the same order, of the leaves active at t in the original document; outside the window the segment shows nothing.", "quantifier": "every document tree, window and instant", "why_tests_cant": "Requires composing segmentation with timing resolution over unbounded trees.", "anchors": ["ebu_tt_live/documents/ebutt3_segmentation.py: EBUTT3Segmenter.compute_document_segment", "ebu_tt_live/documents/ebutt3.py: EBUTT3Document.extract_segment"]}
{"id": "C25", "title": "Segments have no empty containers", "statement": "In an extracted segment every div contains a div or a p, every p and span contains a line break, a span or text other than white space, and only p and span elements without spans carry timing; the one exception is the body of a segment without content, which carries the window as its times.", "quantifier": "every document tree and window", "why_tests_cant": "Unbounded trees; discarding an element can empty its ancestors.", "anchors": ["ebu_tt_live/bindings/validation/content.py", "ebu_tt_live/bindings/__init__.py: div_type._semantic_after_subtree_copy"]}
{"id": "C26", "title": "Prefixed identifiers never clash across documents", "statement": "The identifiers written into segments of two documents coincide only if the documents have the same sequence number and the original identifiers were equal.", "quantifier": "every pair of sequence numbers and identifiers", "why_tests_cant": "Infinite domain of strings.", "anchors": ["ebu_tt_live/bindings/validation/base.py: IDMixin.deconflict_id"]}
{"id": "C27", "title": "Splicing produces unique body identifiers and keeps all content in order", "statement": "Splicing any list of segments yields a body whose content is the concatenation of the segments' contents in order, identifiers aside. When two or more segments are spliced no identifier occurs twice in that body, whatever identifiers the segments use; a single segment is returned as it is. When the segments come from documents with different sequence numbers (prefixed identifiers, unique in each) the whole spliced document, head included, has no repeated identifier and keeps every style and region under its name.", "quantifier": "every non-empty list of segments with arbitrary identifiers", "why_tests_cant": "Renaming is iterated over an unbounded number of merges.", "anchors": ["ebu_tt_live/documents/ebutt3_splicer.py: EBUTT3Splicer", "ebu_tt_live/bindings/__init__.py: body_type.merge", "ebu_tt_live/bindings/__init__.py: body_type._merge_deconflict_ids"]}
{"id": "C28", "title": "Resegmentation preserves what viewers see", "statement": "For every reachable sequence and window, the spliced document returned by extract_segment shows at every instant t of the window exactly the text shown at t by the document active at t, and nothing if none is active.", "quantifier": "every reachable sequence state, every window, every instant", "why_tests_cant": "End to end composition of sequence resolution, lookup, segmentation, splicing and timing.", "anchors": ["ebu_tt_live/documents/ebutt3.py: EBUTT3DocumentSequence.extract_segment", "ebu_tt_live/documents/ebutt3_splicer.py: EBUTT3Splicer"]}
{"id": "C29", "title": "Style references are resolved completely, once each, and cycles are always refused", "statement": "Resolving a list of style references terminates for every style sheet. It fails exactly when a style that can be reached from the references leads back to itself or a reachable reference names no style, and the error names such a style. Otherwise the result holds every reachable style exactly once and nothing else, ordered so that a style has priority over the styles it refers to and an earlier reference, with all it leads to, over a later one. What was resolved before makes no difference.", "quantifier": "every finite style graph and every reference list", "why_tests_cant": "Graphs are unbounded and may be cyclic.", "anchors": ["ebu_tt_live/bindings/__init__.py: style_type.ordered_styles", "ebu_tt_live/bindings/__init__.py: style_type.resolve_styles"]}
{"id": "C30", "title": "Style attribute precedence", "statement": "The value an element specifies for an attribute is that of its first style reference that leads to a value, a style's own value before those it refers to. The computed value of an inherited attribute is the first value specified going from the element outwards, else the value of the region, else the default; an attribute that is not inherited is the element's own specified value or the default.", "quantifier": "every combination of specified, parent, region and default styles", "why_tests_cant": "Decision logic over chains of arbitrary length.", "anchors": ["ebu_tt_live/bindings/__init__.py: style_type.compute_inherited_attribute", "ebu_tt_live/bindings/__init__.py: style_type.compute_simple_attribute", "ebu_tt_live/bindings/__init__.py: style_type.compute_style"]}
{"id": "C31", "title": "Relative font sizes multiply along the ancestor chain", "statement": "The computed font size of a p or span is, per direction, the product along the way from the region and the body down to it: an absolute size replaces what is around it, a percentage scales it, starting from the region's font size or one cell. It is always settled in cells.", "quantifier": "every chain of relative and absolute sizes", "why_tests_cant": "Unbounded depth.", "anchors": ["ebu_tt_live/bindings/__init__.py: style_type.compute_font_size", "ebu_tt_live/bindings/_ebuttdt.py: PercentageFontSizeType.do_mul"]}
{"id": "C32", "title": "Styles and regions of one element do not leak to its siblings", "statement": "The computed style and the region of an element depend only on the element, the elements around it and the head, not on its siblings; validating an element leaves the style stack and the current region as they were before it.", "quantifier": "every content tree", "why_tests_cant": "Stack discipline over unbounded recursion.", "anchors": ["ebu_tt_live/bindings/validation/presentation.py: StyledElementMixin._semantic_pop_styles", "ebu_tt_live/bindings/__init__.py: div_type._semantic_after_traversal", "ebu_tt_live/bindings/validation/presentation.py: RegionedElementMixin._semantic_unset_region"]}
{"id": "C33", "title": "A document is processed at most once", "statement": "check_if_document_seen answers that a document is new exactly when its number is not among the last 100 numbers accepted as new for its sequence identifier; so the first delivery is always processed and a repeated delivery within that window never is, whatever other sequences are interleaved.", "quantifier": "every delivery history over any number of sequences", "why_tests_cant": "Unbounded histories; eviction depends on history length.", "anchors": ["ebu_tt_live/node/base.py: AbstractNode.check_if_document_seen", "ebu_tt_live/utils.py: RingBufferWithCallback"]}
{"id": "C34", "title": "Handover output is one gap-free sequence", "statement": "Whatever is delivered to a handover node, the documents it emits carry the configured output identifier and sequence numbers 1, 2, 3, ... without gap or repetition in emission order.", "quantifier": "every interleaving of inputs from any number of sequences", "why_tests_cant": "Unbounded interleavings.", "anchors": ["ebu_tt_live/node/handover.py: HandoverNode.process_document"]}
{"id": "C35", "title": "Handover switches only to a higher token", "statement": "The handover node selects another sequence only on a document whose authors group control token is strictly greater than that of the last document of the selected sequence; documents of sequences that are not selected are never emitted, and documents of another authors group are refused without effect.", "quantifier": "every input history", "why_tests_cant": "State machine over unbounded histories.", "anchors": ["ebu_tt_live/node/handover.py: HandoverNode.process_document"]}
{"id": "C36", "title": "Passive nodes do not alter documents", "statement": "A distributor emits every new document (one not among the last 100 processed of its sequence) once, with the very XML it received, or its own serialisation if it came without, and every message, all in arrival order.", "quantifier": "every delivery history", "why_tests_cant": "Unbounded histories.", "anchors": ["ebu_tt_live/node/distributing.py: DistributingNode.process_document"]}
{"id": "C37", "title": "Retiming shifts everything by the delay", "statement": "After a retiming delay of d, every element's computed begin and end are exactly d later than before, structure and text are unchanged, and what is shown at t + d is what was shown at t. The node emits every new document of the sequence it saw first, in order, with its number, under the configured identifier.", "quantifier": "every document tree, every delay", "why_tests_cant": "Unbounded trees with explicit and implicit timings at any level.", "anchors": ["ebu_tt_live/node/delay.py: RetimingDelayNode", "ebu_tt_live/node/delay.py: update_children_timing", "ebu_tt_live/node/delay.py: update_body_timing"]}
{"id": "C38", "title": "Buffer delay keeps order and content", "statement": "A buffer delay node gives out every document at most once, unchanged and never earlier than the configured delay after its arrival; whatever arrived is given out or still pending; documents that arrive at different instants are given out in arrival order.", "quantifier": "every arrival schedule", "why_tests_cant": "Schedules are unbounded.", "anchors": ["ebu_tt_live/node/delay.py: BufferDelayNode"]}
{"id": "C39", "title": "Resequencer windows tile time", "statement": "The segments emitted by a resequencer carry numbers 1, 2, 3, ... and the windows they were extracted for are consecutive: each begins where the previous ended and has exactly the configured length, so every instant after the start belongs to exactly one segment, whether or not extractions fail in between. A segment shows at each instant of its window what the document active then shows, and producing it, with or without discarding, does not change which document is active afterwards.", "quantifier": "every number of segments and every schedule of incoming documents", "why_tests_cant": "Unbounded runs.", "anchors": ["ebu_tt_live/node/consumer.py: ReSequencer"]}
{"id": "C40", "title": "Encoding maps clock times to media time faithfully", "statement": "Conversion between a clock time base and media time preserves order and durations and maps the configured media zero to zero.", "quantifier": "every pair of times and every reference", "why_tests_cant": "Infinite domain.", "anchors": ["ebu_tt_live/clocks/media.py: MediaClock.get_media_time", "ebu_tt_live/node/encoder.py: EBUTTDEncoder"]}
{"id": "C41", "title": "A consumer of one sequence never mixes sequences", "statement": "A node limited to one sequence accepts documents of the identifier it saw first and refuses documents of every other identifier with an error, leaving its state unchanged; what it holds is the result of adding exactly the documents of that first identifier in order of delivery.", "quantifier": "every delivery history", "why_tests_cant": "History property.", "anchors": ["ebu_tt_live/node/base.py: AbstractNode.limit_sequence_to_one"]}
{"id": "C42", "title": "Deduplication keeps appearance", "statement": "After deduplication every style and region reference resolves to an element with the same attribute values as before (of several references to styles with the same values the first is kept), and no two styles or regions with the same attribute values remain. The node emits, with their numbers and under the configured identifier, only deduplicated documents of the sequence it saw first.", "quantifier": "every style sheet, layout and reference list", "why_tests_cant": "Unbounded lists with arbitrary duplicate patterns.", "anchors": ["ebu_tt_live/node/deduplicator.py: DeDuplicatorNode", "ebu_tt_live/node/deduplicator.py: ReplaceStylesAndRegions"]}
{"id": "C43", "title": "Conversion to EBU-TT-D keeps text and timing", "statement": "Converting a document to EBU-TT-D keeps every text and line break in order and maps every leaf interval through the media clock, so that the same text is shown at corresponding instants.", "quantifier": "every document tree", "why_tests_cant": "Unbounded trees.", "anchors": ["ebu_tt_live/bindings/converters/ebutt3_ebuttd.py: EBUTT3EBUTTDConverter"]}
{"id": "C44", "title": "Manifest lines survive a round trip", "statement": "Reading the manifest written by the filesystem producer hands on exactly the documents and messages given to it that had an availability time, in order, each with its own content and its availability time (delay included) to the millisecond, whatever was in the directory before.", "quantifier": "every series of documents and messages of one sequence with distinct sequence numbers whose identifier has no comma or line break; every availability time, negative ones and those beyond a day included", "why_tests_cant": "Infinite domain of times and names.", "anchors": ["ebu_tt_live/carriage/filesystem.py: FilesystemProducerImpl", "ebu_tt_live/carriage/filesystem.py: FilesystemReader", "ebu_tt_live/carriage/filesystem.py: timestr_manifest_to_timedelta"]}
{"id": "C45", "title": "The manifest never lists a file that was not written", "statement": "If the filesystem producer stops at any point, in the middle of a file or of a manifest line, the complete lines of the manifest on disk are those of a first part of the documents given to it, and every file they name holds the whole document.", "quantifier": "every run over one sequence with distinct sequence numbers, without rotating buffer, and every crash point", "why_tests_cant": "Crash points between individual file operations.", "anchors": ["ebu_tt_live/carriage/filesystem.py: FilesystemProducerImpl.emit_data"]}
{"id": "C46", "title": "The rotating buffer keeps exactly the latest files", "statement": "A file producer with a circular buffer of size n removes only files that are not among the last n written, oldest first and each once, and whenever its deleting thread has caught up exactly the last n files are on disk.", "quantifier": "every series of writes of distinct files, every buffer size and every interleaving with the deleting thread", "why_tests_cant": "Unbounded runs.", "anchors": ["ebu_tt_live/utils.py: RotatingFileBuffer", "ebu_tt_live/utils.py: RingBufferWithCallback"]}
{"id": "C47", "title": "Published data reaches exactly the subscribers of its sequence", "statement": "Each connection to a websocket server is sent exactly the data published for a sequence identifier while the connection was an accepted subscriber of that identifier, each once and in the order of publication, and no other data; the consumer is handed exactly what arrives on accepted publishing connections, in order and with the connection's own sequence identifier.", "quantifier": "every interleaving of connects with any path, disconnects, incoming messages, immediate and delayed emissions", "why_tests_cant": "Concurrency: unbounded interleavings.", "anchors": ["ebu_tt_live/twisted/websocket.py: BroadcastServerFactory", "ebu_tt_live/twisted/websocket.py: BroadcastServerProtocol", "ebu_tt_live/twisted/websocket.py: TwistedWSPushProducer", "ebu_tt_live/twisted/websocket.py: TwistedWSConsumer"]}
{"id": "C48", "title": "Text wrapping loses nothing", "statement": "Tokenizing a text into subtitle blocks terminates, keeps every word exactly once and in order, gives one or two lines per block, never a line longer than 38 characters unless it is a single word, and within a sentence breaks a line only where the next word does not fit and a block only after two lines.", "quantifier": "every text, given as sentences of words", "why_tests_cant": "Infinite domain of texts.", "anchors": ["ebu_tt_live/utils.py: tokenize_english_document"]}
{"id": "C49", "title": "XML comparison is an equivalence", "statement": "compare_xml is reflexive, symmetric and transitive on unquoted texts that all begin, or all do not begin, with an XML declaration; it ignores the order of attributes, comments, and the length of runs of two or more white space characters; and it tells apart documents that differ in an element name, an attribute, the number or order of child elements or in text, up to that white space. Two texts in quotes, or both in the quotes of unicode strings, are compared by what is inside the quotes.", "quantifier": "every pair and triple of documents", "why_tests_cant": "Infinite domain of trees.", "anchors": ["ebu_tt_live/utils.py: compare_xml"]}
{"id": "C50", "title": "Only time formats allowed by the time base are accepted", "statement": "While parsing, a timing attribute value is read as a full clock time only under the media time base, as a limited clock time only under the clock time base, as SMPTE only under smpte, and as a timecount only under clock or media; a validated document contains no timing value outside this table.", "quantifier": "every time base, attribute, value type and document tree", "why_tests_cant": "Must hold for every element of every tree.", "anchors": ["ebu_tt_live/bindings/_ebuttdt.py: _TimedeltaBindingMixin._ConvertArguments_vx", "ebu_tt_live/bindings/validation/timing.py: TimingValidationMixin._semantic_timebase_validation"]}
{"id": "C51", "title": "Identifiers in a validated document are unique and lookups agree", "statement": "Registration lets a document pass validation exactly if no two of its styles, regions, divs, ps and spans share an xml:id; afterwards get_element_by_id returns exactly the element carrying that id and having the type asked for, and raises LookupError if there is none; before any validation it raises SemanticValidationError.", "quantifier": "every document tree", "why_tests_cant": "Unbounded trees.", "anchors": ["ebu_tt_live/bindings/validation/base.py: IDMixin._semantic_register_id", "ebu_tt_live/bindings/__init__.py: tt_type.get_element_by_id"]}
{"id": "C52", "title": "Produced documents are numbered consecutively", "statement": "A producer answers each request with the document numbered one more than the last, containing the lines of the next input block separated by line breaks and shown for exactly one second from one second after the reference time; when the input is used up it sends nothing more. Without input it sends the time at which the document will be shown.", "quantifier": "every stream of inputs", "why_tests_cant": "Unbounded runs.", "anchors": ["ebu_tt_live/node/producer.py: SimpleProducer.process_document", "ebu_tt_live/documents/ebutt3.py: EBUTT3DocumentSequence.new_document"]}
{"id": "C57", "title": "Computed times show what the written times say", "statement": "From the availability time on, the text a validated document shows according to the computed times is exactly the text whose surrounding elements have all begun and not yet ended according to the begin and end attributes written in the document.", "quantifier": "every document tree without body duration and zero ends, every availability time and instant", "why_tests_cant": "Unbounded trees and all instants.", "anchors": ["ebu_tt_live/bindings/validation/timing.py: TimingValidationMixin", "ebu_tt_live/documents/ebutt3.py: EBUTT3Document.validate"]}
{"id": "C58", "title": "Conversion to EBU-TT-D keeps font sizes", "statement": "In a document converted to EBU-TT-D the percentages of the generated styles give every p and span the font size it had, and the line height it had.", "quantifier": "every series of p and span elements with arbitrary computed sizes", "why_tests_cant": "Infinite domain of sizes; generated styles are shared between elements.", "anchors": ["ebu_tt_live/bindings/converters/ebutt3_ebuttd.py: EBUTT3EBUTTDConverter._fix_fontsize", "ebu_tt_live/bindings/converters/ebutt3_ebuttd.py: EBUTT3EBUTTDConverter._get_font_size_style"]}
{"id": "C53", "title": "Looking up a time range finds exactly the elements shown in it", "statement": "For elements that do not end before they begin, looking up a range on a document's timeline returns exactly the elements whose interval overlaps the range, each once; an element that overlaps the range is returned whatever the other elements are.", "quantifier": "every list of timed elements in any order, every range, open or closed at either side", "why_tests_cant": "Unbounded number of elements with any coincidences of times.", "anchors": ["ebu_tt_live/documents/ebutt3.py: TimelineUtilMixin.lookup_range_on_timeline", "ebu_tt_live/documents/ebutt3.py: TimelineUtilMixin.add_to_timeline"]}
{"id": "C54", "title": "A segment is a valid document whose references can all be followed", "statement": "Whatever segment is cut out of a valid document is itself a valid document: every style and region its elements refer to is in its head, with everything these refer to; no identifier occurs twice; identifiers are those of the document (with the sequence prefix if asked for) in document order; and it has no region that none of its elements refers to.", "quantifier": "every valid document (any head, any body), every window, with and without identifier prefixes", "why_tests_cant": "Unbounded style graphs, layouts and bodies, and every possible window.", "anchors": ["ebu_tt_live/documents/ebutt3_segmentation.py: EBUTT3Segmenter.compute_document_segment", "ebu_tt_live/documents/ebutt3.py: EBUTT3Document.extract_segment", "ebu_tt_live/bindings/validation/base.py: IDMixin, SemanticValidationMixin._semantic_deconflicted_ids"]}
{"id": "C55", "title": "Segments can be cut out of every valid document", "statement": "For a valid document and a window that its body overlaps, the extraction of the segment succeeds.", "quantifier": "every valid document and every window [wb, we) with 0 <= wb < we that the body overlaps", "why_tests_cant": "The failures depend on the interplay of window, element times, style references and regions, for unboundedly many documents.", "anchors": ["ebu_tt_live/documents/ebutt3_segmentation.py: EBUTT3Segmenter", "ebu_tt_live/documents/ebutt3.py: EBUTT3Document.extract_segment"]}
{"id": "C56", "title": "A segment looks like the document it was cut from", "statement": "At every instant of the window a segment, read as a document of its own, shows the same texts in the same order as the document, each in the same computed style and in the same region (up to the prefix of identifiers); at every other instant it shows nothing.", "quantifier": "every valid document (any styles, regions and nesting), every window, every instant, with and without identifier prefixes", "why_tests_cant": "Styles are inherited and merged over the whole tree, so dropping parts of the tree could change any of unboundedly many combinations.", "anchors": ["ebu_tt_live/documents/ebutt3_segmentation.py: EBUTT3Segmenter.compute_document_segment", "ebu_tt_live/bindings/__init__.py: style_type, region_type, div_type, p_type, span_type _semantic_copy", "ebu_tt_live/bindings/validation/presentation.py: StyledElementMixin, RegionedElementMixin"]}
{"id": "C59", "title": "The document returned for a range looks like the document active at each instant", "statement": "Extracting a range from a sequence returns a valid document that, at every instant of the range, shows what the document active in the sequence at that instant shows: the same texts in the same order, each in the same computed style and in the same region (up to the identifier prefix SEQn.). Where no document is active, and outside the range, it shows nothing.", "quantifier": "every sequence reachable by adding documents in any order, every range, every instant, and every content of the held documents", "why_tests_cant": "The result depends on the whole arrival history (which document is active when) and on the styles, regions and nesting of every held document; their combinations are unbounded.", "anchors": ["ebu_tt_live/documents/ebutt3.py: EBUTT3DocumentSequence.extract_segment", "ebu_tt_live/documents/ebutt3_splicer.py: EBUTT3Splicer", "ebu_tt_live/documents/ebutt3_segmentation.py: EBUTT3Segmenter", "ebu_tt_live/bindings/__init__.py: tt_type.merge, head_type.merge, styling.merge, layout.merge, body_type.merge"]}
{"id": "C60", "title": "Adapters join components of different data types", "statement": "A node and a carriage can be joined exactly when their data types agree, one of them takes anything, or the toolkit has a conversion; configured adapters must lead from one type to the other. What then passes between them arrives as data of the type the receiver expects.", "quantifier": "all pairs of data types, all adapter lists, all data and keyword arguments", "why_tests_cant": "Every pair of components, every list of adapters and every document matter; tests join a few of them.", "anchors": ["ebu_tt_live/adapters/base.py:IDocumentDataAdapter", "ebu_tt_live/adapters/document_data.py:get_document_data_adapter", "ebu_tt_live/adapters/node_carriage.py:AbstractNodeCarriageAdapter", "ebu_tt_live/config/adapters.py:parse_adapter_list"]}
{"id": "C61", "title": "Documents arrive over each carriage as they were sent", "statement": "A document emitted by one node and received by another over memory, a folder or a websocket is the same document: same content, same sequence, same order; over a folder also with its availability time to the millisecond.", "quantifier": "all documents that survive writing and reading, all keyword arguments, all lists of documents, all histories of a websocket server", "why_tests_cant": "Holds for every document, every sequence of documents and every interleaving of connections and publications.", "anchors": ["ebu_tt_live/adapters/document_data.py", "ebu_tt_live/carriage/filesystem.py", "ebu_tt_live/carriage/websocket.py", "ebu_tt_live/documents/ebutt3.py:EBUTTLiveMessage"]}
{"id": "C62", "title": "A distributing node sends what it was handed", "statement": "Whatever nodes and adapters a document has passed, the text a distributing node sends reads back as the document it was handed and is announced under that document's sequence identifier and number.", "quantifier": "all chains of nodes and adapters of any length, all documents", "why_tests_cant": "The result depends on every node before it: a test of the node alone cannot see a stale text carried by another.", "anchors": ["ebu_tt_live/node/distributing.py", "ebu_tt_live/node/consumer.py", "ebu_tt_live/adapters/document_data.py"]}
{"id": "C63", "title": "Keyword arguments travel through chains of nodes", "statement": "Handing a document through a chain of nodes and adapters in memory never fails because an argument is given twice, and a delay asked for by a buffer delay node reaches the carriage at the end of the chain.", "quantifier": "all chains of nodes and adapters of any length, all data and keyword arguments", "why_tests_cant": "A clash needs a particular combination of nodes; there are infinitely many chains.", "anchors": ["ebu_tt_live/node/delay.py:BufferDelayNode", "ebu_tt_live/node/encoder.py", "ebu_tt_live/node/distributing.py", "ebu_tt_live/adapters/node_carriage.py"]}
{"id": "C64", "title": "In-memory carriages join the configured nodes", "statement": "What a node writes to an in-memory carriage is handed to every node configured to read it, in the order of a line of nodes, and handing it on ends.", "quantifier": "all configurations of any number of nodes, all node behaviours, all documents", "why_tests_cant": "Ranges over all configurations; who gets a document depends on all nodes of the configuration together.", "anchors": ["ebu_tt_live/config/carriage.py:DirectCommon", "ebu_tt_live/config/node.py", "ebu_tt_live/carriage/direct.py", "ebu_tt_live/config/__init__.py:AppConfig"]}
{"id": "C65", "title": "Websocket components start and serve as configured, in any order", "statement": "An application's websocket carriages start exactly if no two outputs and no two inputs listen on one address and there is no legacy output; then each address is served by the output and the input configured for it, and every configured connection is made, in whatever order components are started.", "quantifier": "all sets of configured components in all orders of starting", "why_tests_cant": "Components are kept in a set, so the order of starting is arbitrary; all orders and all configurations matter.", "anchors": ["ebu_tt_live/config/backend.py:TwistedBackend", "ebu_tt_live/config/carriage.py:WebsocketOutput", "ebu_tt_live/twisted/websocket.py"]}
{"id": "C66", "title": "Nodes can be found by their names", "statement": "Asking a universal configuration for node K gives the node configured under that name.", "quantifier": "all configurations, all node names", "why_tests_cant": "Depends on which of the node slots are used; every subset of them is a case.", "anchors": ["ebu_tt_live/config/node.py:UniversalNodes", "ebu_tt_live/config/node.py:UniversalNodeList"]}
{"id": "C67", "title": "Templates are filled in", "statement": "Text in a configuration value that is not a variable stays as it is, and every variable between pairs of asterisks is replaced by its value, once; a variable that is not known is an error.", "quantifier": "all texts made of plain pieces and variables, all values of variables", "why_tests_cant": "The pattern is matched anywhere in any text; the result must be right for every arrangement of pieces and variables.", "anchors": ["ebu_tt_live/config/common.py:resolve_runtime_variables"]}
{"id": "C68", "title": "Documents survive being written and read", "statement": "The text a document is sent as can be read again and gives the same document: the same elements, attributes and texts, however many nodes it passes.", "quantifier": "all documents of any shape, all characters in texts and attributes, any number of hops", "why_tests_cant": "Ranges over all trees, characters and numbers of hops; the loss only shows in mixed content and grows with every hop.", "anchors": ["ebu_tt_live/bindings/__init__.py:tt_type.toxml", "ebu_tt_live/bindings/__init__.py:d_tt_type.toxml", "ebu_tt_live/bindings/_ebuttlm.py", "ebu_tt_live/documents/ebutt3.py:EBUTT3Document.get_xml", "ebu_tt_live/documents/ebuttd.py"]}
{"id": "C69", "title": "Sizes mean what they say", "statement": "An origin, extent, font size, line height or cell resolution is taken exactly if it is written as one or two decimal numbers of one unit, and it stands for those numbers, signs included, in that unit.", "quantifier": "all texts", "why_tests_cant": "Ranges over all texts; the patterns allow signs, missing digits before the dot and two dimensions in any combination.", "anchors": ["ebu_tt_live/bindings/_ebuttdt.py:TwoDimSizingMixin", "ebu_tt_live/bindings/_ebuttdt.py:PixelOriginType", "ebu_tt_live/bindings/_ebuttdt.py:CellResolutionType", "ebu_tt_live/xsd/ebutt_datatypes.xsd"]}
{"id": "C70", "title": "Accepted documents have the parameters they need", "statement": "A document is accepted only if it has the parameters of its time base and no others, and uses pixels only if it says how many pixels there are; then every size in pixels can be converted to cells.", "quantifier": "all documents: any parameters, any number of styles and regions with any sizes", "why_tests_cant": "Ranges over all combinations of parameters and sizes; a missing check only shows for one class of sizes.", "anchors": ["ebu_tt_live/bindings/__init__.py:tt_type._semantic_before_validation", "ebu_tt_live/bindings/__init__.py:tt_type._semantic_before_traversal", "ebu_tt_live/bindings/validation/presentation.py:SizingValidationMixin", "ebu_tt_live/bindings/_ebuttdt.py:pixels_to_cells"]}
{"id": "C71", "title": "Copies keep the parameters of a document", "statement": "The copy of a document that a segment is made from has all parameters of the document.", "quantifier": "all documents", "why_tests_cant": "Each parameter is copied by name; one that is forgotten is only noticed by documents that use it.", "anchors": ["ebu_tt_live/bindings/__init__.py:tt_type.__copy__"]}
{"id": "C72", "title": "A sequence takes the document it is made from", "statement": "A sequence made from a valid document takes that document, and the documents it creates are valid, are taken by it, are numbered one by one and carry its identifier, group, language and time base. It takes no document of another identifier, time base, clock mode or group.", "quantifier": "all valid documents, any number of new documents", "why_tests_cant": "Ranges over all time bases and clock modes and all histories of the sequence.", "anchors": ["ebu_tt_live/documents/ebutt3.py:EBUTT3DocumentSequence.create_from_document", "ebu_tt_live/documents/ebutt3.py:EBUTT3DocumentSequence.new_document", "ebu_tt_live/clocks/__init__.py:get_clock"]}
{"id": "C73", "title": "A converted document looks the same", "statement": "Every element of a validated document is found at the same place of the converted document with the same kind and identifier, and its colours, alignment, decoration, font family, style and weight, direction, wrapping, padding and background, worked out from the styles and regions of the converted document, are those of the validated one.", "quantifier": "all documents: any styles, regions, trees and style references", "why_tests_cant": "Ranges over all style sheets and trees; whether a value is lost depends on which style sets it and how it is reached.", "anchors": ["ebu_tt_live/bindings/converters/ebutt3_ebuttd.py:EBUTT3EBUTTDConverter.convert_style", "ebu_tt_live/bindings/converters/ebutt3_ebuttd.py:EBUTT3EBUTTDConverter.convert_region", "ebu_tt_live/bindings/converters/ebutt3_ebuttd.py:EBUTT3EBUTTDConverter.convert_body", "ebu_tt_live/bindings/converters/ebutt3_ebuttd.py:EBUTT3EBUTTDConverter.convert_document"]}
{"id": "C74", "title": "Converted text has the size it had", "statement": "The font size and the line height of every p and span, worked out from the percentages of the converted document, are those computed for it in the validated document.", "quantifier": "all documents: any tree, any font sizes in cells, pixels and percent on any element, style and region", "why_tests_cant": "Sizes multiply along every path of the tree and generated styles are shared between elements far apart.", "anchors": ["ebu_tt_live/bindings/converters/ebutt3_ebuttd.py:EBUTT3EBUTTDConverter._fix_fontsize", "ebu_tt_live/bindings/converters/ebutt3_ebuttd.py:EBUTT3EBUTTDConverter._get_font_size_style", "ebu_tt_live/bindings/converters/ebutt3_ebuttd.py:EBUTT3EBUTTDConverter.convert_children"]}
{"id": "C75", "title": "Converted documents refer only to what they define", "statement": "In a converted document every reference to a style or region leads to exactly one style or region.", "quantifier": "all documents", "why_tests_cant": "References are generated during the traversal, the styles added at the end; ranges over all trees and identifiers.", "anchors": ["ebu_tt_live/bindings/converters/ebutt3_ebuttd.py:EBUTT3EBUTTDConverter._link_adjusted_fonts_styling", "ebu_tt_live/bindings/converters/ebutt3_ebuttd.py:EBUTT3EBUTTDConverter.convert_tt", "ebu_tt_live/bindings/converters/ebutt3_ebuttd.py:EBUTT3EBUTTDConverter.convert_layout", "ebu_tt_live/bindings/converters/ebutt3_ebuttd.py:EBUTT3EBUTTDConverter.convert_styling"]}
{"id": "C76", "title": "Converted regions and colours", "statement": "A converted document has the regions of the source, each covering the same part of the picture, or one that covers everything if there were none; colours mean the same and are written in numbers; every convertible document is converted.", "quantifier": "all documents, regions, cell resolutions and colours", "why_tests_cant": "Ranges over all sizes, resolutions, colour texts and trees.", "anchors": ["ebu_tt_live/bindings/converters/ebutt3_ebuttd.py:EBUTT3EBUTTDConverter.convert_region", "ebu_tt_live/bindings/converters/ebutt3_ebuttd.py:EBUTT3EBUTTDConverter.convert_layout", "ebu_tt_live/bindings/converters/ebutt3_ebuttd.py:EBUTT3EBUTTDConverter.convert_head", "ebu_tt_live/bindings/_ebuttdt.py:convert_cell_region_to_percentage", "ebu_tt_live/bindings/_ebuttdt.py:named_color_to_rgba"]}
{"id": "C77", "title": "Clocks tell the time", "statement": "A local or utc clock says the time since midnight; a media clock says the time it was set to plus the time passed since; every clock advances exactly as fast as time. In fixed-time mode a clock says the time registered last, and calls with values of the wrong type raise and change nothing.", "quantifier": "all instants, zones and clocks, and all histories of calls of set_fixed_time, set_fixed_time_mode and adjust_time", "why_tests_cant": "Ranges over all pairs of instants, including those on both sides of a midnight, and all histories of calls; tests run at one time of day.", "anchors": ["ebu_tt_live/clocks/base.py:Clock", "ebu_tt_live/clocks/local.py:LocalMachineClock", "ebu_tt_live/clocks/utc.py:UTCClock", "ebu_tt_live/clocks/media.py:MediaClock"]}
{"id": "C78", "title": "Documents without availability time are filed under the time of their sequence", "statement": "The file producer uses the availability time it is given; without one it uses a clock for the time base of the sequence, started with its first document, so that media times begin at zero and go on with the time passed, and clock times are times of day in the mode of the documents, whatever other sequences are written. Messages before any document get no manifest line. Each sequence's lines are in the manifest of that sequence. Media times do not loop.", "quantifier": "all series of documents and messages of any number of sequences, at any instants", "why_tests_cant": "Ranges over all interleavings of sequences, instants and histories.", "anchors": ["ebu_tt_live/carriage/filesystem.py:FilesystemProducerImpl.check_availability_time", "ebu_tt_live/carriage/filesystem.py:FilesystemProducerImpl._get_default_clock", "ebu_tt_live/carriage/filesystem.py:FilesystemProducerImpl.emit_data"]}
{"id": "C79", "title": "A resequencer is live", "statement": "A resequencer sends each segment when the window of the segment ends according to its clock.", "quantifier": "all schedules of documents and timer calls, all start times and segment lengths", "why_tests_cant": "Ranges over all histories, in particular when the first document comes and how long the resequencer runs.", "anchors": ["ebu_tt_live/node/consumer.py:ReSequencer", "ebu_tt_live/config/node.py:ReSequencer", "ebu_tt_live/config/backend.py:TwistedBackend.call_periodically"]}
{"id": "C80", "title": "Nodes use the clock and times of their configuration", "statement": "A node gets the clock its configuration names, and any other name is refused; a resequencer begins its output when its clock says the configured time; the media time of an encoder is zero at the configured time or when it is made.", "quantifier": "all clock names, texts, instants and zones", "why_tests_cant": "Ranges over all texts and instants; depends on the time of day at which the program is started.", "anchors": ["ebu_tt_live/config/clocks.py:get_clock", "ebu_tt_live/config/node.py:ReSequencer", "ebu_tt_live/config/node.py:EBUTTDEncoder", "ebu_tt_live/config/node.py:SimpleProducer"]}
{"id": "C81", "title": "What is published at one end of a websocket reaches the consumer at the other end, in order", "statement": "Take a websocket server and any number of websocket clients made by outputs and inputs with `connect`. The consumer of a client that subscribes to a sequence is handed, with that sequence's identifier, a prefix of the data that the server's producer published for the sequence while the connection was subscribed: in order, without gaps, each once. The server's consumer is handed, from each publishing client and with the sequence identifier of its URL, a prefix of the data that the client's producer published for that sequence while the connection was open, and nothing else. If the connection is not lost and nothing is refused, all of it has been handed over once the messages on their way have arrived.", "quantifier": "for all numbers of clients, all URLs, all divisions of clients among producers, and all interleavings of connecting, losing connections at either end, publishing at either end at once or delayed, arrivals and refusals", "why_tests_cant": "The statement ranges over all interleavings of the two ends of all connections; tests use one client, one order of events and mock connections.", "anchors": ["ebu_tt_live/twisted/websocket.py: BroadcastClientProtocol, BroadcastClientFactory, BroadcastServerProtocol, TwistedWSPushProducer, TwistedWSConsumer", "ebu_tt_live/config/backend.py: _ws_create_client_factories"]}
{"id": "C82", "title": "A document published over a websocket arrives as the same document at the node behind the other end", "statement": "Let a node publish documents through a websocket output and another node receive through a websocket input, with the adapters that configurations put between nodes and carriages. The receiving node is handed documents only, never an error: those published for the sequence of the URL while the connection was there, equal to the ones published, in the order of publication, without gaps, each once; and all of them once what is on its way has arrived, if the connection is not lost. The same holds in the other direction, for clients that publish to a server, separately for each client.", "quantifier": "for all documents whose printed text is read back as the same document (shown for all trees in which elements with text contain nothing but text), all numbers of clients and servers, all URLs, and all interleavings of connecting, losing connections, publishing at once or delayed, and arrivals", "why_tests_cant": "Every part is tested alone, with mocks in the place of the others; the claim is about all documents and all schedules of the whole path.", "anchors": ["ebu_tt_live/twisted/websocket.py", "ebu_tt_live/carriage/websocket.py", "ebu_tt_live/adapters/document_data.py: EBUTT3toXMLAdapter, XMLtoEBUTT3Adapter", "ebu_tt_live/documents/ebutt3.py: get_xml, create_from_xml"]}
{"id": "C83", "title": "Documents of a sequence leave the user input page numbered in order, on a connection for their sequence", "statement": "From the creation of a sequence on the user input page on, its documents leave the page with numbers that start at one, increase and are never used twice, whatever else is done there: other sequences, connections that come and go, the page being loaded again. Numbers are not skipped. Every document leaves on a connection that was made for its sequence. A document that is scheduled is sent at its time.", "quantifier": "for all histories of the page: all orders of creating, selecting and removing sequences, typing, the keys and buttons that send, the interval of asynchronous sending, connecting, disconnecting, failures and ends of connections, messages from the server and reloads, with any number of sequences and connections", "why_tests_cant": "The page's scripts have no tests of this; the claim is about all interleavings of what a user does with events of the network, and what survives reloads.", "anchors": ["ebu_tt_live/ui/user_input_producer/uip.js: createTemplateDict, submitDocument, asyncSubmit, sendDocument", "ebu_tt_live/ui/user_input_producer/index.html: schedule-subtitle-button"]}
{"id": "C84", "title": "What is typed on the user input page is what is read from the document", "statement": "For everything typed on the user input page, the document that is sent is well formed; its attributes are what is in the form, fields that are left empty being left out; its only span has the lines that were typed, with line breaks between them. At the server it becomes a document with that sequence identifier, number and time base if the connection is for its sequence. The Enter key keeps as many of the last lines as leave room for the new line.", "quantifier": "for all texts and numbers of lines, all values of the fields, all sequence numbers and all maximal numbers of lines", "why_tests_cant": "The template is filled in without any escaping; tests try a few texts.", "anchors": ["ebu_tt_live/ui/user_input_producer/uip.js: createTemplateDict, nunjucks.render, keydown", "ebu_tt_live/ui/user_input_producer/template/user_input_producer_template.xml", "ebu_tt_live/adapters/document_data.py: XMLtoEBUTT3Adapter"]}
{"id": "C85", "title": "The times of a document are read according to its own time base, whatever else is parsed", "statement": "However many documents were parsed before, successfully or not, and whatever other threads parse meanwhile, a document is read with formats of times that its own time base permits, and is refused only if one of its times has none of these formats. Under a time base no text has two formats. A parse ends. Between parses a program can make times of any format. The same holds for EBU-TT-D documents.", "quantifier": "for all schedules of any number of threads, each parsing any documents (with any times, with or without a time base) and making any values in between", "why_tests_cant": "The choice of the class depends on a dictionary kept per thread that outlives hooks and exceptions; tests parse a few documents in one thread.", "anchors": ["ebu_tt_live/bindings/pyxb_utils.py: xml_parsing_context, get_xml_parsing_context, reset_xml_parsing_context", "ebu_tt_live/bindings/__init__.py: CreateFromDocument, CreateFromDOM, tt_type", "ebu_tt_live/bindings/_ebuttdt.py: _TimedeltaBindingMixin._ConvertArguments_vx", "ebu_tt_live/bindings/validation/base.py: _setAttribute", "ebu_tt_live/bindings/validation/timing.py: _pre_timing_set_attribute"]}
{"id": "C86", "title": "A player sees what the sequence shows", "statement": "Whatever documents arrive at a resequencer and whenever its timer runs, the EBU-TT-D documents that an encoder makes from its segments, played together, show at every media time exactly what the document shows that is active in the sequence at the corresponding time, and nothing where none is active. No segment shows anything outside its window. Every segment can be converted.", "quantifier": "for all reachable sequences and windows, all courses of deliveries and timer calls at a resequencer, all media times and all instants of media time zero", "why_tests_cant": "It composes resolution, segmentation, splicing, writing and reading of times, and conversion; a test follows a few documents through one of the steps.", "anchors": ["ebu_tt_live/node/consumer.py: ReSequencer.convert_next_segment", "ebu_tt_live/documents/ebutt3.py: EBUTT3DocumentSequence.extract_segment", "ebu_tt_live/node/encoder.py: EBUTTDEncoder.process_document", "ebu_tt_live/bindings/converters/ebutt3_ebuttd.py: EBUTT3EBUTTDConverter", "ebu_tt_live/clocks/media.py: MediaClock.get_media_time"]}
{"id": "C87", "title": "The user input server hands on and answers every message", "statement": "Whatever connections open, send and close in whatever order, the node behind the user input server takes every payload exactly once and in the order of arrival, as if there were no server. Every message is answered, to its sender and nobody else and in that order: with SUCCESS if the node took it, otherwise with ERROR and the text of the exception.", "quantifier": "for all nodes (any state, any exceptions), all courses of connections opening, sending and closing", "why_tests_cant": "It is about every interleaving of any number of connections and about every node behind the server.", "anchors": ["ebu_tt_live/twisted/websocket.py: UserInputServerProtocol.onMessage", "ebu_tt_live/twisted/websocket.py: UserInputServerFactory", "ebu_tt_live/twisted/websocket.py: TwistedConsumer.write"]}
{"id": "C88", "title": "Legacy clients get exactly their channels", "statement": "A connection to a legacy broadcast server is sent exactly the broadcasts made while it is open and subscribed to their channel (it asked for the channel since it was opened, and has not left it since), in order and once each. A client subscribes to exactly the channels it was given and hands all it receives to its consumer, in order. The server holds exactly the open connections.", "quantifier": "for all courses of connections, messages of any content, losses and broadcasts at a server; all channel lists", "why_tests_cant": "Subscription is a function of the whole history of every connection; a test follows a few messages of one.", "anchors": ["ebu_tt_live/twisted/websocket.py: LegacyBroadcastServerProtocol", "ebu_tt_live/twisted/websocket.py: LegacyBroadcastServerFactory", "ebu_tt_live/twisted/websocket.py: LegacyBroadcastClientProtocol", "ebu_tt_live/twisted/websocket.py: LegacyBroadcastClientFactory"]}
{"id": "C89", "title": "Behind a retiming delay node everything is shown later by the delay", "statement": "A consumer behind a retiming delay node and a consumer in front of it, which got each document the delay earlier, build a sequence each. Every document is taken, refused or discarded alike by both. At every time the one behind the node has that document active which the one in front had active the delay earlier, and it shows the same text.", "quantifier": "for all documents with times that can be moved, all orders of arrival, all arrival times, all delays of whole milliseconds, all times", "why_tests_cant": "It relates two consumers over every sequence of documents and at every moment; a test compares a few begin and end times of one document.", "anchors": ["ebu_tt_live/node/delay.py: RetimingDelayNode", "ebu_tt_live/documents/ebutt3.py: EBUTT3DocumentSequence", "ebu_tt_live/bindings/__init__.py: body_type", "ebu_tt_live/bindings/validation/timing.py: TimingValidationMixin"]}
{"id": "C90", "title": "Operations go through a document in order, once and completely", "statement": "An operation derived from the shared traversal calls its hooks for every selected element in document order: begin, process, content, end (or content before process). No hook is called twice for an element. After a StopBranchIteration exactly the rest of that element and its content is left out; after any other exception nothing more is called, and it gets out. Hooks are given exactly the results of the completed children, in order. Retiming's search for untimed leaves, registration of identifiers, timing validation and segmentation are such operations and do what is claimed of them elsewhere.", "quantifier": "for all hooks (any state, results and exceptions, at any point), all documents, both orders", "why_tests_cant": "The hooks are arbitrary and may raise anywhere; every operation of the toolkit relies on the order in which a tree of any shape is traversed.", "anchors": ["ebu_tt_live/bindings/pyxb_utils.py: RecursiveOperation", "ebu_tt_live/errors.py: StopBranchIteration", "ebu_tt_live/node/delay.py: UntimedPathFinder", "ebu_tt_live/bindings/validation/validator.py: SemanticValidator", "ebu_tt_live/documents/ebutt3_segmentation.py: EBUTT3Segmenter"]}
{"id": "C91", "title": "Behind a handover node the last document passed on is shown", "statement": "A consumer behind a handover node takes every document the node passes on, provided the producers use one time base and clock mode. At every time it shows the last passed-on document that has begun, unless that has ended. After a handover the previous producer's documents are gone as soon as a document of the new producer has begun. With one producer sending in order, the consumer shows at every time what a consumer in front of the node shows.", "quantifier": "for all histories of documents and messages from any number of producers, with any numbers, tokens and times, and all times", "why_tests_cant": "Which producer is on air depends on the whole history of tokens, and what is shown on how all renumbered documents override each other.", "anchors": ["ebu_tt_live/node/handover.py: HandoverNode.process_document", "ebu_tt_live/documents/ebutt3.py: EBUTT3DocumentSequence.add_document, is_compatible"]}
{"id": "C92", "title": "Content logging does not change the sequence", "statement": "A sequence that logs the contents of its documents (the consumer's verbose option) ends every call as one that does not log, and holds and shows the same documents. What it logs of a document that is inserted are all texts and line breaks of its paragraphs, in the order of the paragraphs' begins; of a discarded document it logs nothing. Up to a given end it writes the paragraphs that begin before it, with the times at which both they and the document are shown.", "quantifier": "for all histories of documents with any numbers and times, and all paragraphs with any nesting of spans", "why_tests_cant": "The log is written in the middle of an update, so an error in writing it leaves any of several partial states, which depend on the history.", "anchors": ["ebu_tt_live/documents/ebutt3.py: EBUTT3DocumentSequence.add_document, _insert_or_discard, _override_sequence; EBUTT3Document.content_to_string, discard_document", "ebu_tt_live/bindings/validation/content.py: SubtitleContentContainer.content_to_string"]}
{"id": "C93", "title": "A reader that follows the manifest gets every document once, in order, whole", "statement": "A filesystem consumer that tails the manifest while the producer is still writing is never ended by an error, at every moment has handed on exactly what belongs to the first few documents given to the producer, whole, in order and with their availability times, and once the producer has written everything, hands on all of it.", "quantifier": "for all lists of documents and messages of one sequence and all interleavings of the producer's writes (character by character) with the reader's steps, of any length", "why_tests_cant": "Producer and reader are separate processes without any locking; what the reader sees depends on where in the producer's writes each of its steps falls.", "anchors": ["ebu_tt_live/carriage/filesystem.py: FilesystemReader.resume_reading, FilesystemConsumerImpl.on_new_data, FilesystemProducerImpl.emit_data"]}
{"id": "C94", "title": "The documents of a filesystem input reach the outputs of the application", "statement": "In an application started from a configuration, the documents that the manifest of a filesystem input lists go through the nodes to every output they lead to, filesystem or websocket, in whatever order the backend starts the components, and the other components run besides.", "quantifier": "for all nodes (any machine), all lists of components in any order, all manifests, and all histories of connections, other inputs, timer calls and appended manifest lines afterwards", "why_tests_cant": "The backend keeps its components in a set, so the order of the starts differs from run to run; and what a client gets depends on when it connects.", "anchors": ["ebu_tt_live/config/backend.py: BackendBase.start, TwistedBackend.start", "ebu_tt_live/config/carriage.py: FilesystemInput.start, WebsocketOutput.start", "ebu_tt_live/carriage/websocket.py: WebsocketProducerCarriage.emit_data", "ebu_tt_live/carriage/filesystem.py: FilesystemReader.resume_reading"]}
{"id": "C95", "title": "Component classes say what they carry, and adapters are found by what they say", "statement": "Interfaces cannot be instantiated. A class of nodes, carriages or adapters that can be instantiated has no abstract method left, and every data type that one of its interfaces requires it to name is named and is a type; a class that does not comply is refused when it is defined. The adapter found for a pair of data types is the first class defined that expects the one and provides the other.", "quantifier": "for all programs, that is all sequences of class statements with any bases (multiple inheritance included), any bodies, failing or not, with garbage collection in between", "why_tests_cant": "The classes are written by users of the toolkit too: hierarchies, orders of bases and bodies are unbounded, and the check is made in a metaclass while a class is being made.", "anchors": ["ebu_tt_live/utils.py: AutoRegisteringABCMeta, AbstractStaticMember, validate_types_only, _assert_asm_is_defined, AnyType", "ebu_tt_live/adapters/base.py: IDocumentDataAdapter.auto_register_impl, get_registered_impl, expects, provides", "ebu_tt_live/node/interface.py: IProducerNode, IConsumerNode", "ebu_tt_live/node/base.py: AbstractConsumerNode, AbstractProducerNode, AbstractCombinedNode"]}
{"id": "C96", "title": "A live message arrives as it was sent", "statement": "A message that is written to XML and read again, and passed on by handover, delay and distributing nodes over any number of carriages, arrives once, with the payload, the sender and the recipients it was sent with, addressed to the sequence of the last handover node. A request typed on the user input page arrives with the typed text.", "quantifier": "for all messages (identifiers, senders, lists of recipients, payloads) and all journeys, that is all finite sequences of nodes and carriages", "why_tests_cant": "Messages, payloads and chains of nodes are unbounded; the tests write and read one message and pass mock messages to single nodes.", "anchors": ["ebu_tt_live/documents/ebutt3.py: EBUTT3ObjectBase.create_from_xml, EBUTTLiveMessage, EBUTTAuthorsGroupControlRequest", "ebu_tt_live/bindings/_ebuttlm.py: message_type.toxml", "ebu_tt_live/xsd/ebutt_livemessage.xsd", "ebu_tt_live/adapters/document_data.py: XMLtoEBUTT3Adapter.convert_data, EBUTT3toXMLAdapter.convert_data", "ebu_tt_live/node/handover.py: process_document", "ebu_tt_live/node/delay.py: process_document", "ebu_tt_live/node/distributing.py: process_document", "ebu_tt_live/node/deduplicator.py: process_document", "ebu_tt_live/node/consumer.py: process_document", "ebu_tt_live/node/encoder.py: process_document", "ebu_tt_live/ui/user_input_producer/template/live_message_template.xml"]}
{"id": "C97", "title": "Lines stay lines through cutting and splicing", "statement": "The document the resegmenter returns for a window shows, at every instant of the window, of each paragraph exactly the pieces of text and the line breaks, in their order, that the document active at that instant in the sequence shows of it, and nothing at other times. Paragraphs may have their lines in spans of their own with line breaks between them, and the lines may come and go at different times.", "quantifier": "for all timed documents, windows, reachable sequences and instants", "why_tests_cant": "Nesting, timing and windows are unbounded; the tests cut a few sample files and look at the number of elements or at saved output.", "anchors": ["ebu_tt_live/bindings/__init__.py: body_type, div_type, p_type, span_type, br_type (_semantic_copy, _assert_in_segment, _semantic_timebase_validation)", "ebu_tt_live/documents/ebutt3.py: EBUTT3DocumentSequence.extract_segment", "ebu_tt_live/documents/ebutt3_segmentation.py", "ebu_tt_live/documents/ebutt3_splicer.py"]}
{"id": "C98", "title": "Lines stay lines in the EBU-TT-D documents made from a live sequence", "statement": "When the segments that a resequencer cuts from a live sequence are converted to EBU-TT-D, a player of the converted documents shows at every media time that the segments cover, of each paragraph, exactly the pieces of text and the line breaks, in their order, that the live document active at the corresponding instant shows of it, and nothing at other media times.", "quantifier": "for all timed documents, reachable sequences, windows, courses of events, media time zeros and media times", "why_tests_cant": "Nesting, timing, windows and courses of events are unbounded; the tests convert a few sample files and compare saved output.", "anchors": ["ebu_tt_live/bindings/converters/ebutt3_ebuttd.py: EBUTT3EBUTTDConverter", "ebu_tt_live/node/encoder.py: EBUTTDEncoder", "ebu_tt_live/node/consumer.py: ReSequencer", "ebu_tt_live/documents/ebutt3.py: EBUTT3DocumentSequence.extract_segment"]}
{"id": "C99", "title": "A resequencer fed in order takes every document and answers every timer call, whatever the timing", "statement": "When the documents of one sequence reach a resequencer each with a higher sequence number than those before, with live messages and calls of its timer at any moments in between and with discarding on or off, then every document is taken, every call of the timer after the first document produces a segment, the document active at an instant not yet covered is the delivered document with the highest number that has begun, unless its end has come, and of the segments converted to EBU-TT-D is read at each media time exactly what that document shows.", "quantifier": "for all sequences of documents, interleavings of deliveries, messages and timer calls, segment lengths and instants", "why_tests_cant": "The interleavings of deliveries and timer calls and the histories of discarded documents are unbounded; the tests run a few fixed orders.", "anchors": ["ebu_tt_live/node/consumer.py: ReSequencer.process_document, ReSequencer.convert_next_segment", "ebu_tt_live/documents/ebutt3.py: EBUTT3DocumentSequence.add_document, extract_segment, discard_before"]}
{"id": "C100", "title": "The blocks of text given to a producer are read at the far end of the chain, each in its second", "statement": "When a producer is given blocks of text and asked for documents at any reference times, and the documents that arrive, some perhaps lost, go in order to a resequencer whose segments are converted to EBU-TT-D, then at each media time is read, with a line break between the lines, the block of the last document sent that arrived before the segment was made and whose second has begun (a document that arrives later than that begins when it arrives), and nothing when its second is over or no such document arrived.", "quantifier": "for all blocks of lines, reference times, losses, arrival times, interleavings with the timer, segment lengths, media time zeros and media times", "why_tests_cant": "It ranges over all texts, losses and interleavings through five components; no test covers the chain from the producer to the EBU-TT-D documents.", "anchors": ["ebu_tt_live/node/producer.py: SimpleProducer.process_document", "ebu_tt_live/node/consumer.py: SimpleConsumer.process_document", "ebu_tt_live/node/consumer.py: ReSequencer", "ebu_tt_live/node/encoder.py: EBUTTDEncoder.process_document", "ebu_tt_live/bindings/converters/ebutt3_ebuttd.py: EBUTT3EBUTTDConverter"]}
{"id": "C101", "title": "A periodic timer goes on as long as no call raises, and the first call that raises is its last", "statement": "The timer of a resequencer or producer makes the same calls as if they were made by hand until one raises; what was handed on up to and in that call is all that is ever sent, whatever is delivered afterwards. A resequencer fed in order whose segments the EBU-TT-D encoder takes in the same process, and a producer given its text over and over again, never stop. One document the encoder cannot convert, documents out of order with discarding on, a first document without a usable clock, or an empty block of text ends all output for good.", "quantifier": "for all courses of deliveries, messages and timer calls, everything the documents may be handed to, texts, reference times and continuations after a failure", "why_tests_cant": "That nothing is ever sent again, or that the output never stops, is a statement about unbounded continuations; the tests call the functions directly and have no timer.", "anchors": ["ebu_tt_live/config/backend.py: TwistedBackend.call_periodically", "ebu_tt_live/config/node.py: ReSequencer._start_looping_call, SimpleProducer.start", "ebu_tt_live/node/consumer.py: ReSequencer.convert_next_segment", "ebu_tt_live/node/producer.py: SimpleProducer.process_document", "ebu_tt_live/carriage/direct.py: DirectCarriageImpl.emit_data"]}
{"id": "C102", "title": "A configured proxy is read as it is written and used for every connection of its component", "statement": "A proxy setting is read as the host and port written in it, with or without a protocol, in only one way; an empty one means no proxy, and an application with any other text is refused. Every connection a component makes goes through the proxy of that component, and through none if it has none.", "quantifier": "for all texts of proxy settings and all lists of configured components with their addresses", "why_tests_cant": "The accepted texts are given by a pattern with several ways to match; that it accepts exactly the addresses and never finds another host in one is a statement about all texts. No test makes connections through a proxy.", "anchors": ["ebu_tt_live/config/carriage.py: proxy_regex, parse_proxy_address, WebsocketInput, WebsocketOutput, WebsocketLegacyInput.start", "ebu_tt_live/config/backend.py: TwistedBackend._ws_create_client_factories, wsl_backend_consumer"]}
{"id": "C103", "title": "Behind a handover node viewers read the author in control", "statement": "When several authors send documents and messages to a handover node, and a resequencer with its timer and the EBU-TT-D encoder stand behind it, the timer never stops, there is a converted document for every call of it after the first document passed on, and of the converted documents is read at every media time the text of the last passed-on document that had begun, until it ends. When an author whose control token no other author's exceeds has taken over, nobody else's text is read from the begin of their first document on. With a retiming delay node between the handover node and the resequencer the same is read the delay later.", "quantifier": "for all numbers of authors, interleavings of their deliveries, messages and calls of the timer, documents, tokens, sequence numbers, segment lengths and media times", "why_tests_cant": "It combines the choice of the handover node with the renumbering, the resolution of overlapping documents, segmentation and conversion, for every interleaving of deliveries and timer calls; tests look at each node with a handful of documents.", "anchors": ["ebu_tt_live/node/handover.py: HandoverNode.process_document", "ebu_tt_live/node/consumer.py: ReSequencer", "ebu_tt_live/node/encoder.py: EBUTTDEncoder.process_document", "ebu_tt_live/config/node.py: ReSequencer", "ebu_tt_live/node/delay.py: RetimingDelayNode"]}
{"id": "C104", "title": "Behind a retiming delay node viewers read everything the delay later", "statement": "When the documents of a sequence, each newer than those before, and messages come to a retiming delay node, and a resequencer with its timer and the EBU-TT-D encoder stand behind it, the timer never stops and there is a converted document for every call of it after the first document. Whatever is read at a media time of the documents converted by the same chain without the delay node, in which everything happens the delay earlier, is read of those converted behind it the delay later, and nothing is read before.", "quantifier": "for all delays in whole milliseconds, documents, interleavings of deliveries, messages and calls of the timer, segment lengths and media times", "why_tests_cant": "It combines retiming of every kind of timed element with availability times, resolution of overlapping documents, segmentation and conversion, for every interleaving of deliveries and timer calls; tests look at each node with a handful of documents.", "anchors": ["ebu_tt_live/node/delay.py: RetimingDelayNode.process_document", "ebu_tt_live/node/consumer.py: ReSequencer", "ebu_tt_live/node/encoder.py: EBUTTDEncoder.process_document"]}
{"id": "C105", "title": "Removing duplicate styles and regions does not change how anything looks", "statement": "When a document whose styles do not refer to other styles and whose references can all be followed passes the deduplicator, the document it makes is valid again, and has the same elements, text and times; every element has the same specified and the same computed style as before, and is shown in a region with the same attributes, specified and computed style, or in none if it was in none.", "quantifier": "for all documents, meanings of attribute values, cell resolutions and extents, and orders in which Python's dictionaries give their entries", "why_tests_cant": "References are replaced by those to whichever of the equal styles Python's dictionaries leave, repeated references are dropped, and the computed style of an element depends on all references up to the body; tests compare the identifiers left for a few files.", "anchors": ["ebu_tt_live/node/deduplicator.py: DeDuplicatorNode.remove_duplication", "ebu_tt_live/node/deduplicator.py: ReplaceStylesAndRegions", "ebu_tt_live/bindings/__init__.py: StyledElementMixin", "ebu_tt_live/documents/ebutt3.py: EBUTT3Document.validate"]}
{"id": "C106", "title": "A deduplicator before the encoder does not change the EBU-TT-D documents to look at", "statement": "When a document whose styles do not refer to other styles and whose references can all be followed passes a deduplicator and then the encoder, the encoder makes an EBU-TT-D document of it exactly if it would have made one of the document as it was, and raises the same error otherwise. The two EBU-TT-D documents have the same elements, identifiers, times, text and line breaks; every element is given the same values by its styles and has the same inherited values and font size, and its region has the same position, size, padding and styling.", "quantifier": "for all documents none of whose styles is named like a style the encoder generates, meanings of attribute values, cell resolutions and extents, injective ways of printing font sizes, and orders in which Python's dictionaries give their entries", "why_tests_cant": "Two programs that both rewrite references act one after the other, the encoder puts generated styles in front of what the deduplicator left, and which of the equal styles and regions are left depends on dictionary order; tests run each node by itself on a few files.", "anchors": ["ebu_tt_live/node/deduplicator.py: DeDuplicatorNode.remove_duplication", "ebu_tt_live/node/encoder.py: EBUTTDEncoder.process_document", "ebu_tt_live/bindings/converters/ebutt3_ebuttd.py: EBUTT3EBUTTDConverter.convert_document"]}
{"id": "C107", "title": "The encoded documents look like the live documents at each instant", "statement": "An EBU-TT-D document made from a live document shows, at every media time, the pieces of content that the live document shows at the corresponding instant, in the same order, each in the region of the same name and looking the same: colour, background, font family, style, weight and height, direction, alignment, decoration, wrapping and line padding. When the encoder stands behind a resequencer, the EBU-TT-D document of a segment shows in this way what the document active in the sequence at that instant shows (region names gain the prefix SEQn.), nothing where none is active, and nothing outside the segment. Every segment the resequencer emits can be encoded, and while it discards nothing every tick emits one.", "quantifier": "for all documents, histories of arrival, ranges, media times, time bases media and clock, media time zeros, cell resolutions and extents, and injective ways of printing font sizes", "why_tests_cant": "Timing, inheritance of styles, cutting, merging of several heads and bodies and the conversion act on the same elements one after the other; which document is active depends on the whole history, and nesting, styles and instants are unbounded.", "anchors": ["ebu_tt_live/node/encoder.py: EBUTTDEncoder.process_document", "ebu_tt_live/bindings/converters/ebutt3_ebuttd.py: EBUTT3EBUTTDConverter.convert_document", "ebu_tt_live/documents/ebutt3.py: EBUTT3DocumentSequence.extract_segment", "ebu_tt_live/documents/ebutt3_segmentation.py: EBUTT3Segmenter", "ebu_tt_live/documents/ebutt3_splicer.py: EBUTT3Splicer"]}
{"id": "C108", "title": "A viewer does not notice a deduplicator before the encoder", "statement": "Behind a deduplicator and an encoder, a live document whose styles do not refer to other styles and whose references can be followed gives an EBU-TT-D document exactly if it gives one without the deduplicator, and at every media time both show the same pieces of content in the same order, each with the same inherited values, background, bidi setting and font height, in a region with the same position, size, padding and styling. In a chain of resequencer, deduplicator and encoder the EBU-TT-D documents played together show at every media time what the document shows that was active in the sequence at the corresponding instant, and nothing else.", "quantifier": "for all documents, courses of events at the resequencer, media times, meanings of attribute values, cell resolutions and extents, injective ways of printing font sizes, and orders in which Python's dictionaries give their entries", "why_tests_cant": "Resequencing puts styles of several documents into one, deduplication renames references among them, and the encoder adds generated styles; whether anything is seen of that depends on every instant, every history of arrival and on dictionary order.", "anchors": ["ebu_tt_live/node/deduplicator.py: DeDuplicatorNode.process_document", "ebu_tt_live/node/encoder.py: EBUTTDEncoder.process_document", "ebu_tt_live/node/consumer.py: ReSequencer.convert_next_segment"]}
{"id": "C109", "title": "Language, white space handling, agents and roles of texts are kept", "statement": "Every piece of text of a document is in a language, has a white space handling, and is attributed to agents and roles by the elements around it. Extracting a window of a document, splicing segments, extracting a window of a sequence and encoding as EBU-TT-D keep all four for every piece of text. At each instant the document extracted from a sequence, and at the corresponding media time the EBU-TT-D documents made from the segments of a resequencer, show the texts of the document active then with the language, white space handling, agents and roles they have there.", "quantifier": "for all documents and windows, all reachable sequences of documents, all courses of events at a resequencer, all media parameters of the encoder and all instants", "why_tests_cant": "Each node copies attributes element by element, in code of its own for each kind of element and each copy; a forgotten attribute shows only for a document that uses it on that kind of element, and inheritance from elements above makes its effect depend on the whole tree and, in a spliced document, on which document comes first.", "anchors": ["ebu_tt_live/bindings/__init__.py: tt_type.__copy__, tt_type.merge, body_type, div_type, p_type, span_type: _semantic_copy, __copy__, merge", "ebu_tt_live/documents/ebutt3_segmentation.py: EBUTT3Segmenter", "ebu_tt_live/documents/ebutt3_splicer.py: EBUTT3Splicer", "ebu_tt_live/documents/ebutt3.py: EBUTT3DocumentSequence.extract_segment", "ebu_tt_live/bindings/converters/ebutt3_ebuttd.py: EBUTT3EBUTTDConverter.convert_tt, convert_body, convert_div, convert_p, convert_span"]}
{"id": "C110", "title": "Encoding does not change the document that is encoded", "statement": "Encoding a live document as EBU-TT-D leaves the document itself as it was: its content and references are the same, it is still valid, and encoding it again gives the same EBU-TT-D document.", "quantifier": "for all validated documents, media parameters and cell resolutions, whether encoding succeeds or fails", "why_tests_cant": "The converter builds a new document, but hands over list objects of the old one and changes some of them later. Whether a document is affected depends on the computed font sizes all along the tree; a test that looks at the result only, or encodes a document without style references on resized elements, sees nothing.", "anchors": ["ebu_tt_live/bindings/converters/ebutt3_ebuttd.py: EBUTT3EBUTTDConverter.convert_p, convert_span, convert_children, _fix_fontsize", "ebu_tt_live/node/encoder.py: EBUTTDEncoder.process_document", "ebu_tt_live/documents/converters.py: ebutt3_to_ebuttd"]}
{"id": "C111", "title": "Texts stay where they are on the picture", "statement": "Every piece of text is shown in a region: a part of the picture, with a display alignment, writing mode, background and overflow setting and padding. The document a sequence returns for a window, and the EBU-TT-D document made from it, show each text at each instant in the part of the picture where the document active at that instant shows it, arranged the same way; so do the EBU-TT-D documents made from the segments of a resequencer, played together.", "quantifier": "for all reachable sequences, courses of events at a resequencer, held documents, windows, media parameters and instants", "why_tests_cant": "Regions are copied attribute by attribute, renamed, pruned, merged from several documents and converted, and sizes in cells refer to a parameter of the document that is merged apart from them. A text is in the right place only if the region its renamed reference finds in the result is the copy of its own region, for every mix of documents that meet in a window.", "anchors": ["ebu_tt_live/bindings/__init__.py: region_type._semantic_copy, layout.merge, tt_type.merge", "ebu_tt_live/documents/ebutt3_splicer.py: EBUTT3Splicer._do_splice", "ebu_tt_live/bindings/converters/ebutt3_ebuttd.py: EBUTT3EBUTTDConverter.convert_region", "ebu_tt_live/bindings/_ebuttdt.py: convert_cell_region_to_percentage"]}
{"id": "C112", "title": "Retiming nodes one behind the other act as one with the sum of their delays, and documents record it", "statement": "Any number of retiming delay nodes one behind the other, none configured with the output identifier of the one before, emit for any series of documents and messages the same documents, character by character and for the same deliveries, as a single one with the sum of their delays. A document that comes out keeps its number and all its metadata and has exactly one entry more for each node at the end of its record of applied processing, in the order of the nodes, with the node's name and delay; what it shows is shown later by the delays so recorded. Behind a resequencer and the EBU-TT-D encoder viewers read everything later by that sum. A document that a node refuses is left unchanged.", "quantifier": "for all numbers of nodes, delays, documents with or without metadata, and series of deliveries of any sequences", "why_tests_cant": "Ranges over chains of any length, all documents and all histories of deliveries; the test looks at one node and one document and counts the entries.", "anchors": ["ebu_tt_live/node/delay.py: RetimingDelayNode.process_document", "ebu_tt_live/node/delay.py: update_children_timing", "ebu_tt_live/node/delay.py: update_body_timing", "ebu_tt_live/node/base.py: AbstractConsumerNode"]}
{"id": "C113", "title": "Documents in any script travel over folders and websockets", "statement": "Whatever characters a document has, it arrives with exactly these characters after any chain of nodes whose outputs are folders or websockets. A folder output that is given documents and messages leaves each of them in its file and in the manifest, whichever characters they and their sequence identifier have; a call that raises leaves the other documents as they are.", "quantifier": "all texts, all chains of nodes and carriages, all series of documents and messages given as text or as bytes, all points where the producer may be stopped", "why_tests_cant": "Which characters survive depends on the type of the data at each hop, which depends on the nodes and carriages before it; tests use ASCII documents and single hops.", "anchors": ["ebu_tt_live/carriage/filesystem.py: FilesystemProducerImpl.emit_data", "ebu_tt_live/carriage/filesystem.py: FilesystemReader.resume_reading", "ebu_tt_live/twisted/websocket.py: TwistedWSPushProducer._do_write", "ebu_tt_live/node/distributing.py: DistributingNode.process_document", "ebu_tt_live/adapters/document_data.py: XMLtoEBUTT3Adapter"]}
{"id": "C114", "title": "EBU-TT-D documents are named as asked and read back", "statement": "Every EBU-TT-D document is written with a root tt and all its elements in the TTML namespace: without prefix if the default namespace was asked for, with the prefix tt otherwise. The encoder's default_namespace setting decides which. Either way the document can be read back as the EBU-TT-D document it was.", "quantifier": "All EBU-TT-D documents (attributes, trees of elements and text of any depth), both forms of writing, all settings of the encoder, all content models.", "why_tests_cant": "Trees are unbounded, and one passing example in the form without prefix says nothing of the other form or of what the encoder sends.", "anchors": ["ebu_tt_live/documents/ebuttd.py: EBUTTDDocument.create_from_xml, create_from_raw_binding, set_implicit_ns, get_xml", "ebu_tt_live/bindings/__init__.py: ttd_type", "ebu_tt_live/node/encoder.py: EBUTTDEncoder", "ebu_tt_live/config/node.py: EBUTTDEncoder"]}
