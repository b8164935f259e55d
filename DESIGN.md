# Formal model of ebu-tt-live-toolkit in Lean 4: design

## Approach

* Shallow model: each Python function that matters to a property becomes a total Lean function that mirrors it branch by
  branch. Exceptions are values (an inductive outcome type), mutable objects are explicit state that is passed along, and
  `for` loops are structural recursion over the list they run over.
* Every definition of the model carries a comment citing file and lines in `/repo` (always below `ebu_tt_live/`).
  Simplifications are named in that comment.
* Per area `Verif/<Area>/`: the model (`Model.lean` or a file named after the class), a small independent specification
  (`*Spec.lean` or a section "Specification"), helper lemmas (`*Lemmas.lean` and others) and the property theorems
  (`*Props.lean`) with an `example` beside each that a non-trivial case meets its hypotheses.
* Theorems for property Cnn are named `Cnn_…`. `Cnn_…_partial` proves part of the property; its comment says what is missing.
  `Cnn_false_…` is a counterexample: a theorem that the code violates the plain reading in a concrete case. The counterexamples
  are proved by evaluation in the kernel (`decide`, `rfl`), which is what an existence claim needs; the universal theorems are
  proved by induction.
* `seeded/LOG.jsonl` records wrong programs: edits of the model, the claims they break and the theorems that no longer prove.

## Trusted base

* Lean 4.33.0's kernel. Axioms: `propext`, `Classical.choice`, `Quot.sound`; for each theorem see the last section. No axioms
  of our own, no `sorry`, no `native_decide`, no `bv_decide`.
* The transcription from Python 2 to Lean, by reading; the code was not run.
* `datetime.timedelta` is an integer number of microseconds, as it is in CPython.
* Floating point: the conversion of fractions of seconds from text (`float`) is a parameter `Reader` with the assumption
  `Reader.Accurate` (error below one microsecond for three digits; an exact reader is shown to meet it). Font sizes, cell sizes
  and percentages are exact rationals; this is a simplification.
* Python 2 semantics relied on: comparison of a `timedelta` with `None` raises `TypeError`; `and`/`or` treat zero `timedelta`s,
  empty strings and empty lists as false; a class that defines `__eq__` only keeps hashing by identity; `OSError` is not an
  `IOError`; `sorted` and `SortedListWithKey.add` are stable (an equal key goes to the right).
* PyXB: bindings have the attributes the schema declares; `orderedContent()` is document order; simple types keep the text they
  were made from; validation against the XML schema has happened (structure predicates such as `shaped` say what is used of it).
* `sortedcontainers`, Twisted, autobahn, `xml.dom.minidom`, nltk, the file system and the operating system are modelled by the
  behaviour stated at the definitions that use them: the reactor runs every call once and not before it is due, in no particular
  order among calls due at the same time; a connection delivers in order; a file receives characters in the order written.

## Properties

Status and theorems are also in `MANIFEST.json`; statements are in `properties.jsonl`.

| id | property | model | proof method | status |
|----|----|----|----|----|
| C01 | At most one document of a sequence is active at any instant (R14) | `Seq` | representation invariant over all histories of operations and outcomes | proved |
| C02 | The active document is the newest one that has begun | `Seq` | refinement to the set of documents given, by induction over the history | proved |
| C03 | Presentation does not depend on delivery order | `Seq` | corollary of C02: the active document is a function of the set | proved |
| C04 | Resolved times are exactly the trimmed computed times | `Seq` | invariant over reachable states | proved |
| C05 | Sequence order and time order agree | `Seq` | invariant over reachable states | proved |
| C06 | Sequence number collisions are always refused without effect | `Seq` | case analysis of `add_document` plus invariant | proved |
| C07 | Only compatible documents enter a sequence | `Seq` | case analysis; invariant over histories for the adopted group | proved |
| C08 | Adding a compatible document never fails unexpectedly | `Seq` | counterexamples; invariant (ends follow their begins) kept exactly by the documents that fit in: iff, the other direction by constructing the newer documents that fail; classification of the errors | partial |
| C09 | The sequence's last number bounds every document and new documents get fresh numbers | `Seq` | induction over histories with `new_document` | proved |
| C10 | Range lookup returns exactly the documents shown in the range, in order | `Seq.Lookup` | list induction over the timeline on top of the invariant | proved |
| C100 | The blocks of text given to a producer are read at the far end of the chain, each in its second | models of C52 (producer), C99; `liveDoc` and `liveSource` join them | the shape of the produced documents (`Verif/Convert/ProducerChain.lean`) meets the conditions of C97 to C99; the begin of a document that arrives late is the time of its arrival | partial |
| C101 | A periodic timer goes on as long as no call raises, and the first call that raises is its last | `Verif/Node/Timer.lean`: resequencer and producer with a looping call that stops when the call raises, and what their documents are handed to | induction over the events for the two general theorems; C99 and C98 show that no call raises; kernel computation of the failing prefix and `C101_stopped` for every continuation | partial |
| C102 | A configured proxy is read as it is written and used for every connection of its component | `Verif/App/Proxy.lean`: the pattern as a backtracking matcher, and the proxy of each connection | induction over the text; the last colon decides where the host begins, so that there is one reading only | partial |
| C103 | Behind a handover node viewers read the author in control | `Verif/Convert/HandoverChain.lean`: what the resequencer sees of the deliveries to the handover node; `HandoverDelay.lean`: the same with a delay node in between, `HandoverDelays.lean` with several | what is passed on is renumbered in order (C34), so it meets the conditions of C101_chain_partial; the newest document held is the last passed on; the author follows from C35 | partial |
| C104 | Behind a retiming delay node viewers read everything the delay later | `Verif/Convert/DelayChain.lean`: what the resequencer sees of the deliveries to the delay node, and what it would see without it | retiming keeps structure and all conditions of C101_chain_partial and moves all computed times (C37), so the lines read are the same a delay later; the two chains make the segment in question at the same call of the timer | partial |
| C105 | Removing duplicate styles and regions does not change how anything looks | `Verif/Style/Dedup.lean`: styles, regions and content as the deduplicator sees them, the references put back, and validation of the presentation before and afterwards | C42 gives that every reference and region looks the same; by induction over the content both validations then go through the same specified and computed styles, because what is set stays (repeats after the first change nothing) | partial |
| C106 | A deduplicator before the encoder does not change the EBU-TT-D documents to look at | `Verif/Convert/DedupChain.lean`: `Whole.encoded`, the encoder on a document as the deduplicator sees it | C105 gives both validations with the same computed styles; by induction over the content both conversions raise the same error or make the same sheet of generated styles and elements whose references look the same; a converted style gives what its source gives, the first reference wins, and converted regions are compared by the attribute values they are made of | partial |
| C107 | The encoded documents look like the live documents at each instant | `Verif/Convert/LookSpec.lean`: `encodeH`, the encoder on whole documents, and what an EBU-TT-D document shows at a media time and how it looks | the leaves of a document and of its conversion are matched by their positions; C73, C74 and C32 give the look of each, C43 its times; for a sequence, the segments and the spliced document are shown to meet the conditions, and C59 gives what they look like | partial |
| C108 | A viewer does not notice a deduplicator before the encoder | `Verif/Convert/LookDedup.lean`: `encodeDedup`, deduplicator and encoder in a row on whole documents described by their attribute values | C106 gives that the two EBU-TT-D documents look alike element by element; leaves are matched by position, identifiers stay unique because every style and region left was there before, and `LookFrame` shows that only what belongs to existing styles and regions is used; composed with C107 | partial |
| C109 | Language, white space handling, agents and roles of texts are kept | `Verif/Mark/Model.lean`: segmenter, splicer, sequence extraction and encoder with the four attributes beside what is modelled elsewhere; `Mark/Lemmas.lean` shows that forgetting them gives the other models | induction over the tree with the context of a text as parameter; instants by matching the leaves of document and segment one by one, as in C24; sequences by the windows of C12 and C28; the player by matching the leaves of document and conversion one by one; runs by the windows of C39 and C86; exceptions by witnesses | partial |
| C11 | Dropping old documents does not change the present | `Seq` | on top of the invariant | proved |
| C110 | Encoding does not change the document that is encoded | `Verif/Convert/Source.lean`: the conversion with the source document as second result; that PyXB lets source and result share the list of references is an assumption | mutual induction over the tree: the result is that of the other model, the source afterwards is the source with one reference more on each element concerned; second encoding by counting references; validity by C29 | partial |
| C111 | Texts stay where they are on the picture | `Verif/SegHead/Place.lean`, `Verif/Convert/Place.lean`: the attributes of regions and the cell resolution beside what is modelled elsewhere | forgetting them gives the other models; regions of the result are traced to the document they come from by prefix; the names of the regions of pieces by C59 and C107; exceptions by witnesses; runs of a resequencer as in C107 | partial |
| C112 | Retiming nodes one behind the other act as one with the sum of their delays, and documents record it | `Verif/Node/Record.lean`: the retiming node with the metadata of documents, and nodes one behind the other | induction over the tree (retiming twice is retiming once), over the nodes, and over the deliveries with an invariant relating what each node has seen to what the first has | partial |
| C113 | Documents in any script travel over folders and websockets | `Verif/Fs/Encoding.lean`: a folder output call by call with the type of its data; `Verif/Fs/Travel.lean`: texts and bytes over chains of nodes, folders and websockets | a call that raises does to the disk what an empty document without availability time does, so C44 and C45 apply; UTF-8 by Lean's own encoder and its inverse; induction over the chain | partial |
| C114 | EBU-TT-D documents are named as asked and read back | `Verif/Xml/Ttd.lean`: the names of an EBU-TT-D document as written, read and resolved, over the writer and reader of `Verif/Xml/Model.lean`; the encoder's setting | writing then reading is C68; prefixing commutes with indentation, whitespace removal and name resolution, by induction over trees | partial |
| C12 | Segment extraction reads each instant from the active document only | `Seq.Lookup` | fold over the affected documents, on top of C10 | proved |
| C13 | Discarded documents are reported as such and never shown | `Seq.Override` | case analysis of both scans, invariant | proved |
| C14 | Computed times of every element follow the timing rules | `Doc.Timing*` | refinement of the stateful traversal to a function of the path, tree induction | partial |
| C15 | Timing validation is self contained | `Doc.Timing*` | tree induction over the stateful traversal | proved |
| C16 | No element is active before it is available or after an enclosing end | `Doc.Timing*` | from C14 by induction along the path | partial |
| C17 | The document interval covers everything it shows | `Doc.Timing*` | tree induction on the computed intervals | proved |
| C18 | Only elements that end before they begin are treated as badly timed | `Verif/Doc/Timing.lean` `badly`; spelled times in `Verif/Doc/Badly.lean` | induction over numerals of any length relates the order of texts to the order of instants; witnesses where they part | partial |
| C19 | Full clock times survive a round trip | `Time` | digit lemmas and integer arithmetic | proved |
| C20 | Limited clock times survive a round trip or are refused | `Time` | digit lemmas and integer arithmetic | proved |
| C21 | Timecounts survive a round trip | `Time` | digit lemmas; counterexample | partial |
| C22 | Time text order agrees with time order | `Time` | lexicographic order of equally long digit strings | proved |
| C23 | A segment contains exactly what is shown in the window, trimmed to it | `Doc.Segment*` | mutual tree induction on the copy | partial |
| C24 | A segment shows the same text as the document at every instant of the window | `Doc.Segment*` | C23 plus re-validation of the copy | partial |
| C25 | Segments have no empty containers | `Doc.SegmentTidy` | tree induction | proved |
| C26 | Prefixed identifiers never clash across documents | `Doc.Splice` | injectivity of the prefixing | proved |
| C27 | Splicing produces unique body identifiers and keeps all content in order | `Doc.Splice` | induction over the list of segments | proved |
| C28 | Resegmentation preserves what viewers see | `Doc.Reseg` | composition of C12, C24 and C27 | partial |
| C29 | Style references are resolved completely, once each, and cycles are always refused | `Style.Order*` | measure (unvisited styles) for termination; invariant of the depth first search | proved |
| C30 | Style attribute precedence | `Style.Compute*` | fold over the chain of ancestors | proved |
| C31 | Relative font sizes multiply along the ancestor chain | `Style.Compute*` | fold over the chain with exact rationals | partial |
| C32 | Styles and regions of one element do not leak to its siblings | `Style.Present*` | tree induction over the stateful traversal; counterexamples | partial |
| C33 | A document is processed at most once | `Node.Seen` | invariant over delivery histories | proved |
| C34 | Handover output is one gap-free sequence | `Node.Handover` | invariant over delivery histories | proved |
| C35 | Handover switches only to a higher token | `Node.Handover` | invariant over delivery histories | proved |
| C36 | Passive nodes do not alter documents | `Node.Simple` | induction over delivery histories | proved |
| C37 | Retiming shifts everything by the delay | `Node.Retime` | tree induction composed with C14's path function; counterexamples | partial |
| C38 | Buffer delay keeps order and content | `Node.Simple` | invariant over schedules of arrivals and reactor calls | proved |
| C39 | Resequencer windows tile time | `Node.Simple`, `Node.ReseqProps` | invariant over schedules; composition with C28 | proved |
| C40 | Encoding maps clock times to media time faithfully | `Node.Simple` | integer arithmetic | proved |
| C41 | A consumer of one sequence never mixes sequences | `Node.Simple` | induction over delivery histories | proved |
| C42 | Deduplication keeps appearance | `Node.Dedup*` | list and tree induction; counterexamples | partial |
| C43 | Conversion to EBU-TT-D keeps text and timing | `Convert` | tree induction, re-validation of the result | partial |
| C44 | Manifest lines survive a round trip | `Fs` | induction over the list of documents, digit lemmas | partial |
| C45 | The manifest never lists a file that was not written | `Fs` | invariant over all prefixes of the trace of disk operations | proved |
| C46 | The rotating buffer keeps exactly the latest files | `Fs` | invariant over all interleavings of writer and deleter | proved |
| C47 | Published data reaches exactly the subscribers of its sequence | `Ws` | invariant over all interleavings of events | proved |
| C48 | Text wrapping loses nothing | `Wrap` | list induction | proved |
| C49 | XML comparison is an equivalence | `CmpXml` | tree induction on the normal form | proved |
| C50 | Only time formats allowed by the time base are accepted | `Time.Formats` | case analysis over all texts and time bases; tree induction | proved |
| C51 | Identifiers in a validated document are unique and lookups agree | `Ids` | tree induction over registration | proved |
| C52 | Produced documents are numbered consecutively | `Node.Simple`, `Node.ProducerProps` | induction over requests | proved |
| C53 | Looking up a time range finds exactly the elements shown in it | `SegHead.Timeline` | list induction over the sorted events | proved |
| C54 | A segment is a valid document whose references can all be followed | `SegHead` | correspondence of the copy with a pruned tree; closure of the collected styles; re-validation | proved |
| C55 | Segments can be cut out of every valid document | `SegHead` | tree induction on top of C54's invariants, in both directions for the exact condition; counterexamples | partial |
| C56 | A segment looks like the document it was cut from | `SegHead.Keep` | relation between element and copy, tree induction on both validations | partial |
| C57 | Computed times show what the written times say | `Doc.Timing*` | tree induction | proved |
| C58 | Conversion to EBU-TT-D keeps font sizes | `Convert.Fonts` | list and tree induction with exact rationals | partial |
| C59 | The document returned for a range looks like the document active at each instant | `SegHead.Splice`, `Seq` | induction over the merged segments on top of C12 (windows), C54 (segments are valid) and C56 (segments look alike); each held document has one window, so its segment decides for all instants, and C55 says when there is one; counterexamples | partial |
| C60 | Adapters join components of different data types | `Adapt` | case analysis over types; induction over adapter lists | partial |
| C61 | Documents arrive over each carriage as they were sent | `Adapt.TravelProps` on `Fs` and `Ws` | composition with the folder and websocket models, for all histories | partial |
| C62 | A distributing node sends what it was handed | `Adapt.ChainProps` | invariant over chains of stages | partial |
| C63 | Keyword arguments travel through chains of nodes | `Adapt.ChainProps` | invariant over chains of stages | partial |
| C64 | In-memory carriages join the configured nodes | `App` | induction over configurations and over the depth of nested calls | partial |
| C65 | Websocket components start and serve as configured, in any order | `App` | invariant over the list of started components | proved |
| C66 | Nodes can be found by their names | `App` | list induction | partial |
| C67 | Templates are filled in | `App` | induction over the pieces of the template | proved |
| C68 | Documents survive being written and read | `Xml` | the reader is run over the printed text by mutual induction over trees; then induction over the tree read | partial |
| C69 | Sizes mean what they say | `Verif/Size/Model.lean`: the patterns of the size types and how the numbers are taken out of the texts | the readers are shown equal to a description of the text form, by analysing the longest match | partial |
| C70 | Accepted documents have the parameters they need | `Verif/Tt/Model.lean`: checks of parameters and sizes, conversion of pixels | equivalence with the conditions, by cases; counterexamples computed | partial |
| C71 | Copies keep the parameters of a document | `Verif/Tt/Model.lean`: the copy of the tt element | by cases | partial |
| C72 | A sequence takes the document it is made from | `Verif/Tt/Model.lean`: clocks, sequences made from documents and new documents | by cases over time base and clock mode, any number of new documents | partial |
| C73 | A converted document looks the same | `Verif/Convert/Whole.lean`: conversion of head, content and generated styles together | relation between the two trees kept by the conversion (mutual induction), then induction along the path to an element | partial |
| C74 | Converted text has the size it had | `Verif/Convert/Whole.lean` | induction along the path, with the invariants that generated styles keep the size of their identifier and the line height of the elements of that size | partial |
| C75 | Converted documents refer only to what they define | `Verif/Convert/Whole.lean` | the same relation, read backwards; invariant that generated identifiers are unique | partial |
| C76 | Converted regions and colours | `Verif/Convert/Whole.lean` | list induction over regions; the table of names against their meaning; mutual induction for success | partial |
| C77 | Clocks tell the time | `Verif/Clock/Model.lean`: clocks and calls on them | arithmetic of days; induction over the history of calls | partial |
| C78 | Documents without availability time are filed under the time of their sequence | `Verif/Clock/Model.lean`: the clocks of the file producer | induction over the emissions with the remembered clocks | partial |
| C79 | A resequencer is live | `Verif/Node/Simple.lean` and `Verif/Clock/Reseq.lean`: the resequencer and its timer | induction over the events, counting timer calls and segments | partial |
| C80 | Nodes use the clock and times of their configuration | `Verif/Clock/Config.lean`: clocks of configurations | by cases; arithmetic of days | partial |
| C81 | What is published at one end of a websocket reaches the consumer at the other end, in order | `Ws.Net`: server and clients with ordered connections | invariant of the whole network over all interleavings, on top of C47; draining by induction | proved |
| C82 | A document published over a websocket arrives as the same document at the node behind the other end | `Verif/Adapt/WireProps.lean`: `Ws.Net` between the adapters of `Adapt.Model`, with the printer and parser of `Verif.Xml` as the codec | composition of C81 (all interleavings), C68 (printing and parsing) and the adapters; induction over what was said | partial |
| C83 | Documents of a sequence leave the user input page numbered in order, on a connection for their sequence | `Verif/Ui/Model.lean`: the page as a state machine over what users, timers and websockets do | invariants by induction over all histories; a submission analysed once | partial |
| C84 | What is typed on the user input page is what is read from the document | `Verif/Ui/Model.lean`: the template as text; the parser of `Verif.Xml`; the adapters of `Adapt` | the parser run over the template, part by part, for all values; induction over lines; composition with the adapter | partial |
| C85 | The times of a document are read according to its own time base, whatever else is parsed | `Verif/Time/Parsing.lean`: threads with their parsing contexts, hooks, classes and unions as a transition system | invariant of every thread by induction over all schedules; the formats shown disjoint by cases on texts | partial |
| C86 | A player sees what the sequence shows | `Verif/Convert/Chain.lean`: extraction followed by conversion, on the models of C28, C39 and C43 | composition: structural induction shows that spliced segments meet the conditions of the conversion; induction over the course of events | partial |
| C87 | The user input server hands on and answers every message | `Verif/Ws/Legacy.lean`: the user input server over an arbitrary node | induction over the course of events, against the node run alone | partial |
| C88 | Legacy clients get exactly their channels | `Verif/Ws/Legacy.lean`: legacy server with channels per client, client and its factory | the server's state is told by the history alone (induction from its end), then induction over the broadcasts | partial |
| C89 | Behind a retiming delay node everything is shown later by the delay | `Verif/Node/DelayedSeq.lean`: the retiming node between two sequences; `Verif/Seq/Shift.lean`: sequences with moved times | the sequence is equivariant under moving all times and renaming (lemma per function, induction over the calls), then C37 for each document | partial |
| C90 | Operations go through a document in order, once and completely | `Verif/Walk/Model.lean`: the traversal over arbitrary hooks; `Verif/Walk/Uses.lean`: four operations of the toolkit as hooks | mutual induction over the tree, the record of calls against a linear specification (`Verif/Walk/Spec.lean`); refinement of the recursive models by the traversal | proved |
| C91 | Behind a handover node the last document passed on is shown | `Verif/Node/HandoverSeq.lean`, `Verif/Node/HandoverSeqProps.lean`: the node of C34 and C35 in front of the sequence of C01 to C13 | composition: the output is numbered from 1 on (C34), so that it is a history in order, of which C02 gives the active document | proved |
| C92 | Content logging does not change the sequence | `Verif/Seq/Print.lean`: how paragraphs are written; `Verif/Seq/Verbose.lean`: `add_document` with the log calls in their places and the state each leaves when it raises; `VerboseLemmas.lean`, `VerboseProps.lean` | refinement: under the invariant of C01 the resolved times can be looked up at each log call, so the logging run equals the silent one; structural induction over paragraphs for what is written | partial |
| C93 | A reader that follows the manifest gets every document once, in order, whole | `Verif/Fs/Tail.lean`: directory and tailing reader as one transition system, producer steps per character as in C45 | invariant over all schedules (induction from the end): position and output of the reader correspond to a prefix of the emissions; a measure (lines not yet handed on) for catching up | partial |
| C94 | The documents of a filesystem input reach the outputs of the application | `Verif/App/Boot.lean`: the start of the components in the order given, with the manifest read inside the start; the nodes are any machine; events afterwards | induction over the components and over the events | partial |
| C95 | Component classes say what they carry, and adapters are found by what they say | `Verif/Abc/Model.lean`: the class statement with Python's order of bases (C3), lookups, abstract methods, the metaclass and the registry of adapters | invariant over all programs (`Verif/Abc/Inv.lean`); the order of bases keeps the order of every base, so that a lookup on a class agrees with the lookup on the base it comes from; induction over the classes in the order they were made | partial |
| C96 | A live message arrives as it was sent | `Verif/Msg/Model.lean`: message objects, their XML by the printer and parser of `Verif/Xml/Model.lean` and the schema of messages, the adapters, what each node does with a message | the tree read is computed from the tree written (white space dropped); induction over journeys; the template of the page is run through the parser piece by piece | partial |
| C97 | Lines stay lines through cutting and splicing | `Verif/Doc/LinesSpec.lean`: what is read of each paragraph at a time; model of C23 and C28 | mutual induction over the document: each kept leaf is active in the segment exactly when it is in the document, and a paragraph with spans is as long as its spans (`Verif/Doc/Lines.lean`); windows of the active documents as in C28 | partial |
| C98 | Lines stay lines in the EBU-TT-D documents made from a live sequence | `Verif/Convert/LinesSpec.lean`: what a player reads of each paragraph from the times written in the EBU-TT-D document; models of C86 and C97 | the converted segment says of each leaf when it is on, and elements above the leaves have no times (`Verif/Convert/LinesChain.lean`); with C97 for the segment, C39 for the windows of a run | partial |
| C99 | A resequencer fed in order takes every document and answers every timer call, whatever the timing | models of C28, C39 and C98; `InSeq`: the delivered documents have growing numbers, one clock and one authors group | invariant of the run (`Verif/Node/Fed.lean`): the sequence holds the delivered documents that matter after the last window, and its reference points are those of C26; then C98 for the run | partial |

What is missing from the partial ones:

* **C08**: False of the code in general (two counterexamples). Proved: the exact condition (C08_exact_partial): in a history of documents that fit in, a further one keeps the sequence working if and only if a newer held document has already begun when it begins, or it ends strictly before every newer held document begins. It covers in-order histories with drops, non-touching documents in any order, and every arrival order in which late documents end before the newer ones (C08_arrival_partial). The kinds of unexpected errors are characterised for all histories.
* **C100**: True for blocks that are not empty and have no blank lines, documents that arrive before their second is over (if it has begun, in whole milliseconds), and times below 100 hours. A document that arrives late begins when it arrives and still ends with its second. Documents that arrive after their second are not covered: extraction can raise on them (C101_false_too_late).
* **C101**: The general part is exact. That the chain to the encoder never stops is proved under the conditions of C99; without them it is false (the C101_false theorems). The same from the text on (C101_live_partial), under the conditions of C100; a document that arrives after its second can end it for good (C101_false_too_late). The producer never stops below 100 hours less a second and for blocks that are not empty. Of Twisted's LoopingCall, not in the repository, it is assumed that it makes no call after one that raised.
* **C102**: Reading is exact for all texts. False of legacy inputs: their proxy is read and never used (C102_false_legacy). That the websocket library connects through the proxy of its factory is assumed, as is that the configuration library calls the converter for texts only.
* **C103**: For documents of one time base and clock with times in whole milliseconds below 100 hours, lines that hold no other lines and no nested paragraphs, as in C99; what the encoder hands its documents to is taken not to raise. With one or several delay nodes in between under the conditions of C104 and C112.
* **C104**: For documents of one time base and clock with times in whole milliseconds below 100 hours, lines that hold no other lines and no nested paragraphs, as in C99, and whose bodies can be retimed as in C37; what the encoder hands its documents to is taken not to raise.
* **C105**: For the documents of C42_appearance_kept_partial (identifiers differ, no references between styles, ...). What attribute values mean is a parameter of the model. C105_false_style_reference: with a reference from a style to a style the document is not valid afterwards.
* **C106**: For the documents of C42_appearance_kept_partial and C105, without styles named like generated ones (C75). What attribute values mean and how font sizes are printed are parameters of the model.
* **C107**: Under the conditions of C43 and C73 (times on p and span, styles that refer to no styles, no style on the body) and, behind a sequence, of C59 and C86; each has a witness there. Of the look, multiRowAlign, padding and the width of the font are left out, see C73_false_multi_row_align, C73_false_padding, C74_false_width. When the conversion of a document succeeds is C76; that the segments of a resequencer can be encoded is shown for documents without font sizes of zero whose regions have places that can be read. That every tick emits is shown without discarding, see C11_second_discard_can_fail.
* **C108**: Documents for which Dedup.Clean holds, see C42 and C105 for the witnesses against others; from the live document on, under the conditions of C107. Identifiers are shown to stay unique, so that the document stays valid.
* **C109**: False in four cases, each shown by a witness: xml:space on the tt element is lost in segments; texts of later documents of a sequence get the first document's language and the agent and role of its body; the encoder drops the role of a div. Proved for documents without these. What splicing does to documents that disagree is stated exactly by C109_spliced_texts. The role of a line break is not modelled. At each instant under the conditions of C24 and C28. At the player under the conditions of C86, for single windows and for whole runs of a resequencer.
* **C110**: The property is false of the code under the assumption that PyXB keeps a list object that already has the type of the attribute. Proved: only style references of p and span can change; exactly which change and how; the document is unchanged, and a second encoding gives the same, if and only if no p or span has both style references and a font size other than that of its surroundings; otherwise the document is no longer valid. Missing from the full statement: documents with such elements, for which C110_invalid_afterwards and C110_false_unchanged show that it fails.
* **C111**: For every reachable sequence and window: extraction keeps the place of each text, and so does encoding, for one document, for the extracted one, and for all segments of a resequencer played together; what is extracted can be encoded. Missing: what C59 and C107 ask of documents and window; false if documents differ in cell resolution (that of the first is taken for all) and for regions in pixels (passed on in pixels).
* **C112**: The record (C112_one_entry_each) and the refused documents (C112_refused_untouched) are unconditional. The sum needs whole milliseconds below 100 hours; below the millisecond each node cuts off on its own. What viewers read behind a resequencer and encoder (C112_viewers_partial, C112_read_later_partial) is under the conditions of C104. A delivery that raises has already changed identifier and record of the document object. Segments and EBU-TT-D documents have no metadata, so a resequencer or encoder ends the record; this is not modelled.
* **C113**: For Python 2. False outside ASCII: a folder output raises at text and leaves an empty file, which the manifest does not list; a distributing node that got its documents as bytes cannot send them over a websocket. C113_arrives_iff says exactly which chains such a document passes; C113_never_garbled that nothing arrives altered; C113_only_writable_read_partial that failing calls do not disturb the others, and C113_crash the same at every point where the producer is stopped. That XML without encoding declaration is read as UTF-8 is an assumption about the parser.
* **C114**: False of the form with prefix: no such document is ever read back (C114_false_prefixed), and the encoder sends all its documents in that form whatever its setting is (C114_false_setting). Proved of the other form for documents in which text is not beside elements, as in C68. Elements of other namespaces and the timing attributes (C85) are left out.
* **C14**: All documents, reading zero-valued begin/end/dur as absent, as the code does; the counterexamples show that the plain rule is false there. A badly timed body is excepted.
* **C16**: The availability half is false for a body whose end is not after its begin (computed begin 0); proved for all other elements. The end half is proved for every enclosing element.
* **C18**: The code compares the attribute texts. For clock times with equally many hour digits and seconds below sixty the comparison is characterised exactly, for fractions of any lengths: it is right except for an empty interval whose end is spelled with more digits. Right for clock times and for timecounts with equally many digits. False for timecounts and hours with different numbers of digits and for the second sixty, with a document whose interval is wrong as a result.
* **C21**: False of the code for 0 < t < 1 ms: such a time is written as "0None". Proved for t = 0 and t >= 1 ms, below 2^53 ms where float is exact.
* **C23**: All documents that obey the schema, on a clock or media time base, in which no element is judged badly timed and no p or span mixes spans with text of its own. For badly timed elements (text comparison) the claim is false, with a witness.
* **C24**: As C23, for times in whole milliseconds; mixed content and finer times are counterexamples.
* **C28**: Every reachable sequence, every window, open or closed at either end, with bounds in whole milliseconds. The held documents are restricted as in C23/C24 (no badly timed elements, no mixed content, whole milliseconds) and the segmenter must have copied every referenced style and region. A window without an end needs held documents with ends: without one the document is lost (C28_false_open_end).
* **C31**: False when a p with a percentage is in a region and an element outside the region has a percentage too: the region's size is then ignored (C31_false_deferred). Proved for all other chains, and for every p and span of a validated document without nested region attributes. Exact rationals instead of floats.
* **C32**: False as stated: a div leaves its styles on the stack and a region attribute resets the region to none. Proved: p and span restore the stack; with unnested region attributes, region and computed style depend on ancestors only.
* **C37**: Every tree of whole-millisecond times below 100 h whose elements meet movableIn (no empty containers, no zero begins on containers, no text-order mistakes), and no dur without begin when all leaves are timed. Outside these the code does not shift exactly: the C37_false_* witnesses.
* **C42**: Proved for every document meeting Clean: no style-to-style references, no nested repeats, a hash without collisions on the texts that occur, values without the separators. Outside: the C42_false_* witnesses; in particular repeated references change precedence and style-to-style references are lost. Elements with at most one foreign attribute are told apart exactly (C42_told_apart_partial); two are ambiguous.
* **C43**: Text, structure and convertibility for every tree. Timing for every tree whose times are on p and span only, in whole milliseconds, and on a clock time base not nested inside elements with a begin; the C43_false_* witnesses show the code fails outside.
* **C44**: Names are the default patterns. The C44_false_* witnesses show what happens outside: a comma in the identifier makes the manifest unreadable, a number written twice or two sequences with clashing names hand on the wrong content, a document without availability time is never handed on. For content that is bytes or ASCII text (C113_plain_as_before); other text raises and is not listed (C113_false_not_ascii).
* **C55**: False of the code: KeyError in a gap, KeyError with nested regions, AttributeError without styling (three witnesses). C55_exact says exactly for which documents and windows extraction succeeds: head with styling and layout, and everything that elements in the window refer to is in use by the body or a p or span in the window. C55_extraction_succeeds_partial gives conditions that can be read off the document: no nested region attributes and no empty div with references. C55_shown_partial says the same of windows without a begin in which something is shown.
* **C56**: Proved for millisecond times, no mixed text and spans, and no nested region attributes, of all style attributes but multiRowAlign, which segments lose (C56_false_multiRowAlign). With nested regions text can move to another region (C56_false_nested_regions).
* **C58**: Vertical font sizes for every document. Line heights only if elements of equal relative size agree; false otherwise (witnesses). Exact rationals in place of floats.
* **C59**: Proved when the held documents have millisecond times, no mixed text and spans, no nested region attributes, no style on body, no reference to a style or region that is not in use in a window in which a p or span is (met by documents with one div and by those whose divs refer to nothing, safe_of), and the same cell resolution and extent, for all style attributes but multiRowAlign. Each of gaps, body styles and geometry is needed: see the _false theorems. Windows may be open at either end; bounds given are below a hundred hours. Without the condition on references, without those on styling and layout, for documents that last for ever and without the bound, C59_all_or_nothing_partial: what becomes of each held document is all or nothing; C59_exact_partial says which: all if and only if what is referred to is in use in the document's window.
* **C60**: False inside adapter lists (only the ends are compared), across in-memory carriages (which take anything) and for EBU-TT Live to EBU-TT-D. Reading and writing of XML is a parameter (Codec).
* **C61**: Messages lose their availability time when turned into text (C61_false_message). That a document survives writing and reading is an assumption about the XML layer (Survives). C61_filesystem_xml_partial has no such assumption: well-formed trees without text beside elements arrive as the same trees, through files. Text outside ASCII does not pass every carriage: see C113.
* **C62**: False when a retiming, handover or deduplicating node changed a document that still carries the text it was read from: the old text is sent.
* **C63**: False for two buffer delays in one in-memory chain and for an encoder behind a node or adapter that made a text; proved for all other chains.
* **C64**: Only the last configured reader gets anything; with no reader writing fails; cycles never end. Exact characterisations of each are proved.
* **C66**: Right exactly if no node slot before the one asked for is left out.
* **C68**: Tags, attributes and visible characters always survive; texts exactly only where text is not beside other content. False as stated: documents are printed with indentation, which inserts white space into mixed content, more with every hop. The printer and the parser are those of the standard library for the part of XML that is printed; the binding's treatment of texts is modelled by its effect.
* **C69**: Exactly the well-formed texts are taken, for every kind of size. False for origins with a minus sign, which is dropped. Numbers are exact where the program uses floats; only ASCII digits.
* **C70**: Accepted documents are characterised exactly. False as stated: line heights in pixels are not checked, and an extent of zero is accepted.
* **C71**: All parameters are copied except xml:space, which is lost.
* **C72**: Which documents a sequence takes is proved exactly. That it takes the document it was made from, and what it creates, for local, utc and media times. False for gps times, for which there is no clock, and for smpte times, whose new documents lack parameters. Taking over a group is modelled in Verif.Seq.
* **C73**: For all documents whose styles do not refer to styles, without style on body and without nested region attributes; all attributes but multiRowAlign and padding. The C73_false_* witnesses show the claim fails for what is left out. The printed percentage in generated identifiers is assumed to determine the percentage.
* **C74**: The height of the font, for every p and span of every document without styles named like generated ones; the line height where a style was generated and elements of the same relative size agree on it. The width of the font is lost, and so are line heights in the cases of the two witnesses. Sizes are exact rationals.
* **C75**: Every reference is defined; identifiers are unique unless a style is named like a generated one.
* **C76**: Regions in cells and percent for all resolutions, all colours, and which documents are converted. Regions in pixels stay in pixels, which mean nothing in EBU-TT-D; a font size of zero stops the conversion; an empty div is passed on although EBU-TT-D has none.
* **C77**: Within a day. At midnight every clock goes back by a day, media clocks too (C77_between_readings says by how much for any two instants). In fixed-time mode without a registered time a clock says None. Changes of the machine's clock and summer time are not modelled.
* **C78**: Which time is used is proved exactly for every series of emissions. Media times loop at midnight, against the documentation in the code, and all sequences of a carriage share the manifest of the first.
* **C79**: C79_delay says exactly how late each segment is. It is on time with an init document and immediate start; it stays late for ever by the number of timer calls before the first document, and by the time until begin_output; after midnight no segment shows anything. The reactor is taken to be on time.
* **C80**: For utc and local clocks. A begin_output that has passed stops the program from starting; the clock auto fails for all nodes but consumers. Making and starting the node are taken to be at one instant.
* **C82**: Proved for every schedule and for documents that survive printing and parsing; plain_survives gives these for every well-formed tree in which elements with text contain only text. Documents with text beside elements do not survive (C82_false_inline, see C68). Which documents are valid is a parameter of the codec; messages other than documents are not followed.
* **C83**: Increasing numbers for every history in which the sequence is not created again or removed; no gaps if documents are submitted only with a connection; own connection if the page is not pointed to another sequence while connected. Each condition is needed: without a connection, or after any message from the server, numbers are counted and the documents lost; creating a sequence again restarts its numbers; a sequence selected while connected is sent on the connection of the other one. Scheduled documents are never sent: the button has no handler.
* **C84**: For all fields and lines without markup characters. What is typed is not escaped: an ampersand makes the document unreadable and markup becomes markup. With zero lines or an empty field for their number the loop of the Enter key does not end. Characters that XML forbids and ]]> are not looked at by the model's reader.
* **C85**: EBU-TT Live documents: for all schedules and threads. Making a value in a thread other than the importing one, before anything was parsed there, raises an AttributeError whatever the value. EBU-TT-D documents with any timing attribute are never read: their time base does not reach the context and the classes raise a KeyError.
* **C86**: Assumes of the held documents what C28 does (structure of the schema, no badly timed elements, no spans mixed with text, whole milliseconds), and in addition no div in div and no span in span, and with clock times windows from media time zero on. Outside these the conversion raises and nothing of the segment is shown (C86_false_nested, C86_false_before_zero).
* **C87**: A message is not answered if the text of the node's exception has other than ASCII characters: str(e) raises in the handler (C87_false_not_ascii). Closed connections stay in the server's list (C87_clients_never_leave).
* **C88**: Channels with other than ASCII characters cannot be subscribed to: the log line raises first (C88_false_not_ascii). Pausing a client has no effect (C88_false_pause). An input made from the configuration has no channels and is never sent anything (C88_false_configured).
* **C89**: Assumes of the documents what C37 does (the code does not retime others as intended). Where both consumers get a document at the same time, a document without times is not delayed at all if it arrives later than the delay (C89_false_same_arrival).
* **C92**: Proved for documents whose paragraphs and spans have no metadata element in them; with one the property is false (C92_false_metadata): writing the document raises AttributeError in the middle of the update, so that the call fails although the document is held, and the next document fails as well after the first has been cut.
* **C93**: Proved for distinct sequence numbers, no rotating buffer, and a reader that does not look while the last line of the manifest is incomplete; false without each of these (the C93_false theorems): half a line ends the reading for good, a reused number is handed on half, a removed file ends the reading. Opening and reading a document file is one step. C93_documents_partial: the node behind the reader gets the trees that were sent, printed and parsed.
* **C94**: True of filesystem outputs (C94_files). False of websocket outputs: everything is emitted before the reactor runs, hence before anybody can connect, so that nobody ever gets anything (C94_websocket_gets_nothing, for all orders and histories); with a delay node in between it depends on the order (C94_false_order). What comes later from other inputs goes to exactly the clients connected to its output (C94_clients). With tail the start never returns and nothing else runs (C94_tail). Nodes that raise are not considered.
* **C95**: Which class statements work is proved exactly (C95_exact). The members required by the bases of a class themselves are there and pass the check (C95_bases_partial); no abstract method is left (C95_methods). False of members required further up: a node derived from AbstractCombinedNode need not name its types (C95_false), nor need they be types, unless every abstract class in between repeats the requirement (C95_handed_on_partial). Adapters are found if they derive directly from the interface and no class statement failed (C95_registry_partial and the C95_false witnesses). Methods expects and provides are not overridden in the model.
* **C96**: True of payloads that are text (C96_arrives_iff says exactly when a message arrives, C96_travels_partial covers all journeys). False of payloads with elements, of which white space or the first piece of text is read (C96_false_element, C96_false_rest); no message gets past a deduplicator, resequencer or encoder (C96_false_ignored); the adapter takes every message for an authors group control request (C96_false_type); the availability time is lost. Requests typed with & or < or left empty are refused by the server (C96_false_page). C96_names resolves the prefixes that are written with the declarations that are written. Reading with namespace prefixes other than the usual ones and characters XML does not allow is not modelled.
* **C97**: True of paragraphs whose text is all their own or all in spans, with line breaks and white space between the spans. False of spans of white space, which are dropped so that words are glued together (C97_false_blank_span; the words and breaks stay, C97_segment_words_partial, C97_resegmented_words_partial), of text beside timed spans (C97_false_mixed) and from a hundred hours on (C97_false_hundred_hours).
* **C98**: True, under the same conditions on paragraphs as C97 and for media times and clocks as in C86: for one window, for the segment of each state of a resequencer and for all the segments of a course of events together. False of text beside timed spans: after the conversion it is shown for ever (C98_false_forever).
* **C99**: True for documents of one clock and authors group whose end, if any, comes after their begin. What is read (C99_played_partial) under the conditions of C97 and C98; the other parts without them.

## Which code is modelled

Below `ebu_tt_live/`; line ranges are in the comments at the definitions.

| file | modelled | where |
|----|----|----|
| `documents/ebutt3.py` | `EBUTT3DocumentSequence`: compatibility, `add_document` with both scans, override, discard, `new_document`, `discard_before`, lookups, `extract_segment`; `EBUTT3Document`: validation, `extract_segment`, the element timeline, `create_from_raw_binding`, `lookup_range_on_timeline`, `get_element_by_id`; `TimelineUtilMixin`; `EBUTTAuthorsGroupControlRequest` as an opaque message | `Seq`, `Doc.Reseg`, `SegHead`, `Ids`, `Node` |
| `documents/ebutt3_segmentation.py` | all but logging | `Doc.Segment`, `SegHead`, `Mark` |
| `documents/ebutt3_splicer.py` | all | `Doc.Splice`, `Mark` |
| `bindings/__init__.py` | semantic validation, copying (`_semantic_copy`), merging and style computation of tt, styling, style, layout, region, body, div, p, span, br; the parameters of tt and their checks; not the metadata elements | `Doc`, `Style`, `SegHead`, `Ids`, `Tt` |
| `bindings/validation/timing.py` | all, for clock and media; `smpte` as far as it raises | `Doc.Timing`, `Doc.Segment` |
| `bindings/validation/presentation.py` | all | `Style.Present`, `Style.Order`, `SegHead` |
| `bindings/validation/base.py`, `content.py`, `bindings/pyxb_utils.py` | identifiers and their de-confliction, emptiness of containers, the traversal with its hooks, the context of parsing per thread | `Walk`, `Ids`, `Doc`, `SegHead`, `Time.Parsing` |
| `bindings/_ebuttdt.py` | timing types (reading, writing, choice by time base); size types (patterns, reading, arithmetic, conversion of pixels and cells); the names of colours; not alignment and URI types | `Time`, `Size`, `Style.Compute`, `Tt`, `Convert` |
| `bindings/converters/ebutt3_ebuttd.py` | all but metadata | `Convert`, `Mark` |
| `clocks/*.py`, `config/clocks.py` | all; the machine's clock is the instant plus a fixed zone | `Clock`, `Node.Simple`, `Convert`, `Tt` |
| `node/base.py`, `handover.py`, `delay.py`, `distributing.py`, `consumer.py`, `producer.py`, `deduplicator.py`, `encoder.py` | processing of documents and messages | `Node`, `Convert` |
| `carriage/filesystem.py`, `utils.py` (`RotatingFileBuffer`, `RingBuffer`) | producer, manifest, default clocks, reader, rotating buffer; not `FilesystemReader`'s polling of the clock | `Fs`, `Clock` |
| `twisted/websocket.py`, `carriage/websocket.py` | connection handshake, registry, publishing, delayed broadcast, clients and their connections, refusals; the user input server; the legacy protocol with channels; not autobahn | `Ws`, `Node.Simple` |
| `adapters/*.py`, `carriage/base.py`, `carriage/direct.py`, `config/adapters.py` | choice, checking and running of document adapters, in-memory carriage, chains of nodes | `Adapt`, `App` |
| `config/__init__.py`, `backend.py`, `carriage.py`, `common.py`, `node.py` | wiring of components, backends as lists of started components, templates; not the option parser | `App` |
| `documents/ebutt3.py`, `ebuttd.py`, `bindings/_ebuttlm.py`: writing and reading of text | printing with indentation, parsing of what is printed, binding of text and elements, live messages | `Xml`, `Adapt` |
| `ui/user_input_producer/uip.js`, `template/*`, `index.html` | sequences, storage, documents and messages made from the form, keys, connections, sending; not SMPTE, looks, notifications | `Ui` |
| `utils.py` (`compare_xml`, `tokenize_english_document`, `ComparableMixin`) | all | `CmpXml`, `Wrap`, `Seq` |

Not modelled: the XML schema as such, general XML (namespaces, entities beyond the predefined ones, comments), metadata other than the record a
retiming node keeps, logging, error
texts (in Python 2 putting together a log line or an error text with a sequence identifier outside ASCII raises; except in C87, C88 and C113 identifiers are taken to be
ASCII), option parsing, command line scripts, and of the user interface its looks, notifications and running clocks.

## What the proofs found in the code

Behaviour that contradicts a property as a user would read it. Each has a `_false_` theorem or is described at the definition.

### Document sequences
* `add_document` can raise on a consistent sequence when documents arrive out of order and touch in time, or with open ends (C08). A late document that reaches the begin of a newer held one is itself accepted, but leaves two ends in a row on the timeline: from then on some newer documents in perfect order make `add_document` raise (`C08_exact_partial`).
* A document whose interval is empty at time zero is reported with an undefined end and so counts as active (C01).
* `discarded` raises `TypeError` for open-ended documents (C13).
* After `discard_before`, a second `discard_before` can raise (C11).
* A range lookup with begin after end returns documents that are over (C10 excludes it).

* A sequence whose identifier has a character outside ASCII takes no document in Python 2: `add_document` raises `UnicodeEncodeError` at a debug line
  (documents/ebutt3.py:687, `str.format` of a unicode text). Read, not modelled.

### Clocks
* All clocks go back by a day at midnight, media clocks too, although the code says they do not (C77, C78).
* A resequencer whose first document comes after some calls of its timer stays that many segment lengths late for ever; so does one that is
  to begin its output later, by the time until then; the windows do not go back at midnight, so that nothing is shown from then on (C79).
* A `begin_output` that has passed stops the program at its start; the clock `auto` fails for every node but consumers (C80).
* A file producer fed several sequences writes all lines to the manifest of the first (C78).

### Times
* A time of more than zero and less than a millisecond is written as the timecount `0None` (C21).
* A limited clock time refuses 100 hours and more (C20). SMPTE times are always read and written as zero.
* `begin="0s"` and `end="0s"` are treated as absent (C14).
* Whether an element ends before it begins is decided by comparing the attribute *texts* (C18).
* A body that is badly timed begins at zero, whatever its availability time, and is open ended (C16).

### Styles and regions
* `div` does not take its styles off the stack (C32); an element's region attribute resets the region in force to none at its end.
* A percentage below another percentage outside a region ignores the region's font size (C31).
* A style may come before the style that refers to it in the resolved list (C29).

### Segmentation
* A window that misses the body raises `AttributeError`; from a document without `tt:styling` or `tt:layout` nothing can be
  extracted (C55). Inside a sequence these errors are swallowed and the content is silently left out.
* A window in a gap of a div that refers to styles or a region raises `KeyError`; so does a div region all of whose content has
  regions of its own (C55).
* The times of a p that mixes text with spans are lost (C24); times are cut off at milliseconds (C24).
* `multiRowAlign` of a style is lost (C56); with nested regions text can move to another region (C56).
* Styles of earlier divs are kept although unused (C54).
* Pruning the last style leaves a document without styling, which cannot be segmented again.

### Splicing
* Unprefixed style identifiers are renamed with `.1` without checking for a clash (C27); the body style of later segments is lost
  (C27); with three and more documents identifiers are renamed repeatedly.
* The merged document takes cell resolution and extent of the first segment, so pixel sizes of later ones change (C59), and regions of later
  ones that are given in cells are elsewhere on the picture (C111): nothing checks that the documents of a sequence agree in it.
* A document whose segment cannot be extracted is silently missing from the result (C59). It is missing as a whole: what becomes of a held
  document is all or nothing (`C59_all_or_nothing_partial`).

### Nodes
* Only the last 100 numbers of a sequence are remembered (C33).
* A handover node whose selected sequence lowers its token keeps it selected (C35). If the first document of an identifier has
  clock mode gps, the internal sequence has no clock and later documents raise `AttributeError`.
* The resequencer's window stands still while extraction raises.
* Delayed websocket data has no order among calls due at the same instant (C38, C47). The filesystem carriage only adds the delay
  to the manifest's availability time, the direct carriage ignores it.
* Retiming does not shift exactly: empty containers, zero begins, text order, `dur` without begin (C37). The retiming node
  remembers a document of a foreign sequence as seen before it refuses it.
* Deduplication: references between styles become `None`; of repeated references the first is kept, which changes precedence; nested
  repeats raise `IndexError` or lose a reference; `|` in a value can be confused with an absent value, and with two foreign attributes different elements can have the same text (C42).

### Conversion to EBU-TT-D
* Times of body and div and the style of the body are dropped; nested clock times are shifted twice; nested divs and spans raise
  (C43). The document adapter passes the document where its binding is expected and so always yields `None`.
* Styles that refer to styles lose what they refer to, since EBU-TT-D styles have no references and none are resolved; multiRowAlign is
  not passed on although EBU-TT-D has it; padding of styles and the style of body are dropped (C73). Fonts lose their width; paragraphs of the same size share the line height of the last of them, and a line height is lost where the text is of the default size (C74).
* A style named like a generated one takes its place (C75). Regions in pixels are passed on in pixels; a font size of zero raises
  `ZeroDivisionError`; an empty div gives an invalid EBU-TT-D document (C76). `celem.style.insert(0, …)` may also change the style list of
  the source if PyXB shares it; the model takes it as a copy.
* Shared generated font styles overwrite each other's line height; horizontal sizes are lost (C58).
* The encoder's setting `default_namespace` has no effect: it reaches only a document that is never sent. Documents are always written with the
  prefix `tt`, and `EBUTTDDocument.create_from_xml`, which knows an EBU-TT-D root by the tag `tt`, takes those for EBU-TT Live documents and
  raises: the toolkit cannot read the EBU-TT-D documents it sends (C114).

### Carriage
* A comma in the sequence identifier makes the manifest unreadable; re-used numbers or clashing names overwrite listed files; a
  document without availability time is written but never listed (C44).
* In Python 2 a folder output raises `UnicodeEncodeError` at every document with a character outside ASCII (the text is `unicode`, the file is opened without
  encoding). The file has been created or emptied by then; the manifest does not list it, the rotating buffer does not know it. A document written before under the
  same number is destroyed. A sequence identifier outside ASCII cannot be written at all (C113).
* In Python 2 a distributing node hands on the bytes a document was read from, and the websocket output calls `encode("utf-8")` on them, which raises
  `UnicodeDecodeError` outside ASCII as soon as there is a subscriber. So such documents pass a distributor to a folder but not to a websocket, and any other
  node to a websocket but not to a folder (C113_arrives_iff).
* Files rotated away stay listed; a reader that follows the manifest can read half a line (C45).
* A file written again under the same name is deleted although newest; `OSError` kills the deleting thread (C46).
* A refused websocket connection is still registered (C47).
* A websocket client that loses its connection, or whose consumer refuses one document, gets nothing more: it does not connect again (C81).

### From sequence to player
* A document with a div inside a div (or a span inside a span) passes the resequencer, but the encoder raises on every segment with a part of it: other
  documents' content in that segment is lost too (C86).
* A segment that begins before media time zero cannot be converted as soon as it shows anything before it (C86).

### User input server and legacy channels
* An exception with other than ASCII characters in its text leaves the page without an answer (C87). Closed connections are never removed from the user input
  server's list (C87).
* A channel with other than ASCII characters in its name cannot be subscribed to, and the client is not told (C88). `pauseProducing` of a legacy client does
  nothing (C88). The `websocket-legacy` input of the configuration is made without channels, so it never receives anything (C88).
* Scripts that are marked as no longer maintained (read, not modelled): `ebu_user_input_consumer.py` connects a carriage that provides text directly to a node that expects documents, and
  `ebu_user_input_forwarder.py` imports a name that `ebu_tt_live.twisted` does not export.

### Retiming between two consumers
* A retiming node changes identifier and record of the document before it writes the times. If writing raises, the document object is left
  half changed, and delivered once more it is refused as belonging to the node's own output (C112_false_failed_delivery). Two nodes with the
  same output identifier one behind the other let no document through (C112_false_same_identifier). Delays below the millisecond get lost
  at each node (C112_false_below_millisecond).
* Retiming alone does not delay a live document without times: it gets the delay as its begin, and whoever gets it later than that shows it when they get it (C89).
  It is delayed only if its transport is delayed as well.

### Traversal
* A hook that raises `StopBranchIteration` after `_before_element` leaves the element without `_after_element` (C90_not_ended). None of the operations of the toolkit
  is affected: they raise it before they change anything, or have nothing to undo (C90_finder, C90_segment).
* `has_a_leaf_with_no_timing_path` of a leaf itself does not answer but lets `StopBranchIteration` out (C90_finder_on_leaf). The node only asks it of bodies.

### Handover and consumer
* The node renumbers in the order of arrival. A producer's documents that arrive out of order, which a sequence puts right (C03), are shown in the wrong order behind
  the node: the older one overrides the newer one (C91_false_out_of_order).
* The node checks each producer's documents against that producer's sequence only. If a second producer has another time base its documents are passed on and every
  consumer refuses them (C91_false_time_bases).

### Content logging
* With `verbose`, a `tt:metadata` element in a paragraph or span, which the schema allows, makes `content_to_string` raise `AttributeError`. The document has been
  inserted by then, so the call fails although the document is shown. The next document cuts it, tries to log it, fails and is not inserted: from its begin on nothing is
  shown (C92_false_metadata).

### Following the manifest
* `readline()` at the end of a file that is being appended to returns half a line if half a line is there. The tailing reader takes it for a whole one: `split(',')` or the
  opening of a truncated file name raises, and the reading ends for good (C93_false_half_line, C93_dead). So does a listed file that a rotating buffer has already removed
  (C93_false_rotation).

### Filesystem inputs in an application
* Starting a filesystem input reads the whole manifest before the reactor runs. No websocket connection can exist by then, so nothing read from a manifest is ever sent to
  anybody by a websocket output (C94_websocket_gets_nothing). With `tail` the start never returns: what happens to come later in the set of components is not
  started, and the reactor never runs (C94_tail).

### Component classes
* The metaclass checks the required members of a class only against what its own bases require, and an abstract class does not inherit the requirements. Every node and carriage
  derives from an abstract class that does not repeat them, so for them the check is never made: a node without `_expects` can be defined and instantiated and raises
  `TypeError` only when it is connected (C95_false).
* An adapter is registered only if it derives directly from the interface (C95_false_derived_adapter). A class whose statement failed after it was registered shadows the corrected
  one (C95_false_failed_statement).

### Live messages
* Of the payload only the first item is read, so a payload with markup is cut off, and one that is an element is read as the white space the printer put in front of it
  (C96_false_rest, C96_false_element). An empty payload is an `IndexError` (C96_carried).
* The adapter from XML does not look at the type of a message and makes every one an authors group control request (C96_false_type), and drops the availability time.
* Deduplicators, resequencers and encoders drop messages (C96_false_ignored).

### Lines
* Spans that hold only white space are dropped when a segment is made, so that "Hello", " ", "world" in three spans is read as "Helloworld" (C97_false_blank_span).
* A paragraph with text beside timed spans loses that text in a segment wherever no span is shown (C97_false_mixed).
* In a segment that passes a hundred hours, whose times are compared as text, lines are lost (C97_false_hundred_hours).
* Text beside timed spans: the paragraph has no times after the conversion to EBU-TT-D, so that a player shows its text at all times (C98_false_forever).
* The theorems on shown text (C23, C28, C42) ask that no element has text, line breaks included, beside spans. C97 does not: it covers the usual paragraph of two
  lines in spans with a line break between them.

### Parsing context
* EBU-TT-D documents with any timing attribute cannot be parsed with `CreateFromDOM`: the `tt` element of EBU-TT-D has no hook that records the time
  base, and the classes of times look it up (C85).
* In a thread that did not import the bindings and has not parsed a document, no time can be made: `parsing` is set only in the importing thread (C85).

### User input page
* The button "Schedule" has no handler: scheduled documents are never sent (C83).
* Numbers are counted although nothing is sent when there is no connection; any message from the server, such as the `SUCCESS` of the legacy user
  input server, ends the connection; creating a sequence again restarts its numbers; selecting another sequence while connected sends its documents
  on the connection of the first, where they are refused (C83).
* What is typed is put into the document without escaping: `&` makes it unreadable, markup becomes markup. With the number of lines zero
  or empty the page hangs when Enter is pressed (C84).

### Utilities
* `compare_xml` decides by one of the two texts whether both need a wrapper, so it is not symmetric in general; it ignores the place of text
  among children and CDATA (C49).
* Identifiers of metadata elements are not checked (C51). After a failed validation lookups work on part of the tree.

### Joining components
* Of a configured adapter list only the ends are checked; an in-memory carriage takes anything and so hides a mismatch; the
  registered adapter from EBU-TT Live to EBU-TT-D makes documents without binding (C60).
* A live message turned into text and back loses its availability time (C61).
* Documents keep the text they were read from among the keyword arguments. A retiming, handover or deduplicating node does not remove
  it, so a distributing node joined in memory sends the old text, announced under the new identifiers (C62).
* Two buffer delays in one in-memory chain raise `TypeError` for every document; so does an encoder behind a distributor (C63).
* In-memory carriages are shared by identifier in a class-level dictionary: the last reader silently replaces earlier ones, writing
  where nobody reads raises `AttributeError`, cycles recurse without end (C64).
* The legacy websocket output never starts; a second output or input on an address raises `ValueError` (C65).
* An unknown backend type gives `None` instead of a configuration error.
* `node0` is the last node, and with unused node slots other nodes are found than those named (C66).

### Documents as text
* Documents are sent pretty-printed. In elements that may contain text the indentation becomes part of the text: a word partly in a span
  is torn apart, and the text grows with every node passed, without end (C68).

### Sizes and parameters
* The sign of an origin is outside the captured group: `-5%` is read as `5%` (C69).
* `PixelLineHeightType` lacks the check of the other pixel sizes, so a line height in pixels without document extent is accepted and
  ends in a bare `Exception` when an element refers to it; an extent of zero is accepted and divided by (C70).
* `tt_type.__copy__` leaves out `xml:space`, so segments lose it (C71, C109).
* Splicing keeps the first document's tt and body elements: texts of later documents are marked with its language and attributed to the agent and
  role of its body; `convert_div` does not pass on `ttm:role`, although EBU-TT-D has it (C109).
* `get_clock` returns `None` for the clock mode `gps`, which the schema allows: the first document of such a sequence raises
  `AttributeError`. Documents made by a sequence with smpte times lack the required parameters (C72).

### Encoding
* `convert_p` and `convert_span` give the new element the list of style references of the old one, and `_fix_fontsize` inserts the generated style
  into that list: if PyXB keeps the list object (an assumption about the library), the live document itself gets a reference to a style it does not
  have, is no longer valid, and collects one more of them each time it is encoded (C110). Segments of a sequence are not concerned, since
  `_semantic_copy` makes new lists; a document given to the converter directly is.

### Timers
* The looping calls of resequencer and producer have no error callback: the first exception ends them for good, silently. With an in-memory
  chain this includes exceptions of the nodes behind: one document with a `div` in a `div` stops a resequencer joined to an encoder; so do
  documents out of order with `discard`, a first document with GPS clock times, an empty block of text at a producer (C101).
  A live document that arrives after its second is inserted with a begin after its end; asked for a window with its arrival in it, the sequence
  finds no end of it, raises, and the timer is stopped (C101_false_too_late).
  C39 and C79 let the timer go on after a failed extraction; by C101 their statements describe the run up to the first failure.

### Configuration
* A proxy configured for a `websocket-legacy` input is checked and then never used (C102).
* `get_backend` looks the name up with `dict.get`, which does not raise: an unknown backend is not refused as unknown nodes and carriages are,
  but gives `None`, which fails later when it is called. Not modelled.

## Axioms of each theorem

Printed by `#print axioms` for every theorem named in `MANIFEST.json`. No theorem depends on anything else than these three
axioms of Lean.

**none** (9):
`Time.C22_false_from_a_hundred_hours`, `Node.C38_same_instant_may_swap`, `Ids.C51_before`, `Ids.C51_false_after_failure`, `Tt.C71_parameters_kept_partial`, `Clocks.C77_false_media_goes_back`, `Clocks.C78_manifest_partial`, `Ui.C84_false_hang`, `Ws.Legacy.C88_false_pause`

**`propext`** (53):
`Seq.C07_group_adopted_once`, `Seq.C07_group_never_changes`, `Seq.C08_false_swapped`, `Node.C101_stopped`, `Mark.C109_convert_partial`, `Seq.C11_second_discard_can_fail`, `Seq.C13_discarded_raises_when_open_ended`, `Doc.C15_context_restored`, `Doc.C15_siblings_independent`, `Doc.C18_excluded_children_have_no_effect`, `Doc.C18_false_timecounts`, `Node.C37_false_duration`, `Node.C37_false_empty_container`, `Node.C37_false_zero_begin`, `Node.C37_false_badly_timed`, `Node.C37_false_smpte`, `Dedup.C42_false_nested_repeats`, `Convert.C43_text_kept`, `Convert.C43_structure_kept`, `Convert.C43_false_nesting_and_early_times`, `Fs.C46_false_rewritten`, `Ws.C47_false_delay_order`, `CmpXml.C49_false_text_position`, `Time.C50_written_format_is_permitted`, `Ids.C51_false_metadata`, `SegHead.C53_false_reversed_element`, `Adapt.C60_joined_iff`, `Adapt.C60_joined_input_iff`, `Adapt.C60_adapters_accepted`, `Adapt.C60_adapters_refused`, `Adapt.C60_arrives_partial`, `Adapt.C60_arrives_adapters_partial`, `Adapt.C60_false_middle`, `Adapt.C60_false_any`, `Adapt.C60_false_ebuttd`, `Adapt.C61_announced`, `Adapt.C61_false_message`, `Adapt.C62_sends_what_it_got_partial`, `Adapt.C62_false`, `App.C64_false_cycle`, `App.C66_false_gap`, `Clocks.C77_fixed_mode`, `Clocks.C77_false_fixed_without_time`, `Ws.C81_false_lost`, `Ws.C81_false_refused`, `Ws.Legacy.C88_handed_on`, `Ws.Legacy.C88_stopped`, `Walk.C90_observed`, `Walk.C90_not_ended`, `Seq.C92_false_metadata`, `Abc.C95_false_derived_adapter`, `Abc.C95_false_failed_statement`, `Abc.C95_false_any`

**`propext`, `Quot.sound`** (95):
`Seq.C01_false_for_end_at_zero`, `Node.C101_goes_on`, `Node.C101_first_failure`, `Node.Record.C112_one_entry_each`, `Node.Record.C112_refused_untouched`, `Node.Record.C112_false_same_identifier`, `Doc.C16_false_badly_timed_body`, `Doc.C18_false_document_interval`, `Node.C33_forgotten_after_window`, `Node.C34_in_delivery_order`, `Node.C34_messages`, `Node.C35_selected_may_lower_token`, `Node.C36_distributes`, `Node.C37_messages_passed_on`, `Node.C37_node_emits_all`, `Node.C38_delayed_unchanged`, `Node.C38_in_arrival_order`, `Node.C39_numbers_and_windows`, `Node.C39_each_instant_once`, `Node.C41_holds_first_sequence_only`, `Node.C41_refuses_other_sequences`, `Node.C41_held_documents`, `Dedup.replaced_keepFirst`, `Fs.C44_times`, `Fs.C46_keeps_latest`, `Fs.C46_exactly_latest`, `Fs.C46_catches_up`, `Fs.C46_false_failure`, `Wrap.C48_wrap`, `Wrap.C48_filled`, `CmpXml.C49_false_cdata`, `Time.C50_parsed_format_is_permitted`, `Time.C50_accepted_values_are_readable`, `Time.C50_validated_document_formats`, `Time.C50_clock_times_read`, `Time.C50_timecounts_read`, `Adapt.C60_configured`, `Adapt.C60_configured_refused`, `Adapt.C60_configured_none`, `Adapt.C60_written`, `Adapt.C61_text_and_back`, `Adapt.C63_no_clash`, `App.C64_handed_to_last_reader`, `App.C64_false_two_readers`, `App.C64_ends`, `App.C64_ends_in_order`, `App.C64_line_is_chain`, `App.C65_starts_iff`, `App.C65_wired_as_configured`, `App.C65_any_order`, `App.C66_found_iff_partial`, `App.C67_resolves`, `Size.C69_resolution`, `Clocks.C77_time_of_day`, `Clocks.C77_between_readings`, `Clocks.C77_keeps_time_partial`, `Clocks.C77_refused`, `Clocks.C77_adjusted`, `Clocks.C77_adjusted_to`, `Clocks.C79_delay`, `Clocks.C79_live_partial`, `Clocks.C79_delay_stays`, `Clocks.C79_false_late_document`, `Clocks.C79_false_later_start`, `Clocks.C80_times`, `Ui.C84_loop_ends`, `Time.C85_read_by_own_time_base`, `Time.C85_reading_unique`, `Time.C85_no_time_base`, `Time.C85_made_partial`, `Time.C85_false_ebuttd`, `Ws.Legacy.C88_client_listens`, `Ws.Legacy.C88_false_not_ascii`, `Node.C89_false_same_arrival`, `Walk.C90_tour_once`, `Walk.C90_finder`, `Walk.C90_finder_on_leaf`, `Walk.C90_identifiers`, `Node.C91_false_out_of_order`, `Node.C91_false_time_bases`, `Print.C92_written_iff`, `Print.C92_all_text`, `Print.C92_up_to`, `Fs.C93_dead`, `App.Boot.C94_files`, `App.Boot.C94_files_any_order`, `App.Boot.C94_websocket_gets_nothing`, `App.Boot.C94_clients`, `App.Boot.C94_tail`, `App.Boot.C94_false_websocket`, `App.Boot.C94_false_order`, `Abc.C95_registry_stays`, `Abc.C95_false`, `Abc.C95_false_not_a_type`, `Abc.C95_interfaces`

**`propext`, `Classical.choice`, `Quot.sound`** (446):
`Seq.C01_at_most_one_active`, `Seq.C01_at_most_one_active_dropping`, `Seq.C02_active_is_newest_begun`, `Seq.C02_only_accepted`, `Seq.C03_delivery_order_irrelevant`, `Seq.C04_resolved_times`, `Seq.C05_number_order_is_time_order`, `Seq.C05_number_order_is_time_order_dropping`, `Seq.C06_collision`, `Seq.C07_incompatible_refused`, `Seq.C07_refused_reason`, `Seq.C08_in_order_partial`, `Seq.C08_increasing_partial`, `Seq.C08_separated_partial`, `Seq.C08_error_kinds_partial`, `Seq.C08_late_partial`, `Seq.C08_arrival_partial`, `Seq.C08_exact_partial`, `Seq.C08_false_open_ended`, `Seq.C09_new_numbers_fresh`, `Seq.C10_lookup_exact`, `Convert.C100_blocks_played_partial`, `Node.C101_in_order`, `Node.C101_producer_until`, `Node.C101_producer_cycle_partial`, `Node.C101_producer_ends`, `Node.C101_false_empty_block`, `Convert.C101_chain_partial`, `Convert.C101_false_nested`, `Convert.C101_false_out_of_order`, `Convert.C101_false_first_document`, `Convert.C101_live_partial`, `Convert.C101_false_too_late`, `Node.C101_producer_receiver_raises`, `App.C102_proxy_read`, `App.C102_refused_iff`, `App.C102_used_partial`, `App.C102_false_legacy`, `Convert.C103_played_partial`, `Convert.C103_stays_in_control`, `Convert.C103_takeover_partial`, `Convert.C103_delayed_partial`, `Convert.C103_delays_partial`, `Convert.C104_read_later_partial`, `Convert.C104_delayed_partial`, `Style.C105_looks_alike_partial`, `Style.C105_false_style_reference`, `Convert.C106_encoded_alike_partial`, `Convert.C107_encoded_looks_alike_partial`, `Convert.C107_sequence_looks_alike_partial`, `Convert.C107_whole_run_partial`, `Convert.C107_sequence_encodes_partial`, `Convert.C107_segments_encode_partial`, `Convert.C107_whole_run_sure_partial`, `Convert.C107_every_tick_emits_partial`, `Convert.C108_shows_the_same_partial`, `Convert.C108_live_document_partial`, `Convert.C108_whole_run_partial`, `Convert.C108_whole_run_sure_partial`, `Mark.C109_segment_partial`, `Mark.C109_at_each_instant_partial`, `Mark.C109_spliced_texts`, `Mark.C109_splice_partial`, `Mark.C109_encoded_sequence_partial`, `Mark.C109_resequenced_partial`, `Mark.C109_played_is_active_partial`, `Mark.C109_whole_run_partial`, `Mark.C109_false_outer_space`, `Mark.C109_false_languages`, `Mark.C109_false_body_agent`, `Mark.C109_false_div_role`, `Seq.C11_discard_before`, `Seq.C11_discard_before_succeeds`, `Convert.C110_result`, `Convert.C110_content_kept`, `Convert.C110_what_changes`, `Convert.C110_unchanged_iff`, `Convert.C110_no_div`, `Convert.C110_again`, `Convert.C110_invalid_afterwards`, `Convert.C110_valid_afterwards_partial`, `Convert.C110_false_unchanged`, `SegHead.C111_resegmented_place_partial`, `SegHead.C111_false_cells`, `Convert.C111_encoded_place_partial`, `Convert.C111_sequence_place_partial`, `Convert.C111_false_pixels`, `Convert.C111_sequence_encodes_partial`, `Convert.C111_whole_run_partial`, `Convert.C111_segments_encode_partial`, `Convert.C111_whole_run_sure_partial`, `Node.Record.C112_retimed_twice_partial`, `Node.Record.C112_record_tells_delay_partial`, `Node.Record.C112_chain_is_one_node_partial`, `Convert.C112_viewers_partial`, `Convert.C112_read_later_partial`, `Node.Record.C112_false_below_millisecond`, `Node.Record.C112_false_failed_delivery`, `Fs.Encoding.C113_only_writable_read_partial`, `Fs.Encoding.C113_raises_iff`, `Fs.Encoding.C113_files`, `Fs.Encoding.C113_crash`, `Fs.Encoding.C113_identifier`, `Fs.Encoding.C113_plain_as_before`, `Fs.Encoding.C113_false_not_ascii`, `Fs.Encoding.C113_false_overwritten`, `Fs.Travel.C113_never_garbled`, `Fs.Travel.C113_plain_arrives_partial`, `Fs.Travel.C113_arrives_iff`, `Fs.Travel.C113_false_folder`, `Fs.Travel.C113_false_distributing`, `Xml.Ttd.C114_tags`, `Xml.Ttd.C114_default_namespace_partial`, `Xml.Ttd.C114_false_prefixed`, `Xml.Ttd.C114_false_setting`, `Seq.C12_windows`, `Seq.C13_not_held_is_discarded`, `Seq.C13_discarded_never_held`, `Doc.C14_computed_times_partial`, `Doc.C14_false_zero_begin`, `Doc.C14_false_zero_end`, `Doc.C16_available_and_bounded_partial`, `Doc.C17_document_covers_content`, `Doc.C18_badly_timed_spelled_partial`, `Doc.C18_badly_timed_same_digits_partial`, `Doc.C18_badly_timed_counts_partial`, `Doc.C18_badly_timed_clock_partial`, `Doc.C18_false_hours`, `Doc.C18_false_fractions`, `Doc.C18_false_second_sixty`, `Doc.C18_false_timecount_digits`, `Time.C19_full_clock_round_trip`, `Time.C20_limited_clock_round_trip`, `Time.C21_timecount_round_trip_partial`, `Time.C21_false_below_a_millisecond`, `Time.C22_text_order_is_time_order`, `Doc.C23_segment_leaves_partial`, `Doc.C23_segment_exists`, `Doc.overlaps_iff`, `Doc.C23_false_text_order`, `Doc.C24_segment_shows_the_same_partial`, `Doc.C24_false_mixed_content`, `Doc.C24_false_below_a_millisecond`, `Doc.C25_no_empty_containers`, `Doc.C26_prefix_injective`, `Doc.C26_segment_identifiers`, `Doc.C27_content_in_order`, `Doc.C27_body_identifiers_unique`, `Doc.C27_document_identifiers_unique`, `Doc.C27_false_unprefixed_styles`, `Doc.C27_false_body_style`, `Doc.C28_resegmented_shows_active_partial`, `Doc.C28_false_open_end`, `Style.C29_total`, `Style.C29_succeeds_iff`, `Style.C29_error_is_true`, `Style.C29_reachable_exactly_once`, `Style.C29_order_gives_priority`, `Style.C29_history_independent`, `Style.C29_false_referring_first`, `Style.C30_specified_value`, `Style.C30_inherited_step`, `Style.C30_inherited_chain`, `Style.C30_not_inherited`, `Style.C30_region_value`, `Style.C30_line_height`, `Style.C30_document_specified`, `Style.C30_document_value`, `Style.C30_document_one_region`, `Style.C31_font_size_is_product_partial`, `Style.C31_always_cells`, `Style.C31_document_cells`, `Style.C31_document_font_size_partial`, `Style.C31_false_deferred`, `Style.C32_computed_style_ignores_siblings_partial`, `Style.C32_p_and_span_restore_the_stack`, `Style.C32_region_afterwards`, `Style.C32_recorded_styles_suffice`, `Style.C32_false_styles`, `Style.C32_false_region`, `Node.C33_new_iff`, `Node.C33_first_is_new`, `Node.C33_repeat_is_not_new`, `Node.C33_exactly_once`, `Node.C34_output`, `Node.C34_numbers`, `Node.C35_passed_on_iff`, `Node.C35_switches_only_up`, `Node.C35_refused_without_effect`, `Node.C35_uniform_not_refused`, `Node.C36_exactly_once`, `Node.C37_everything_moves_partial`, `Node.C37_shown_later_partial`, `Node.C37_node_emits_retimed`, `Node.C37_false_microseconds`, `Node.C37_false_hundred_hours`, `Node.C39_segments_show_active`, `Node.C40_media_time`, `Node.C40_any_reference`, `Dedup.C42_appearance_kept_partial`, `Dedup.C42_no_reference_added`, `Dedup.C42_node_emits_deduplicated`, `Dedup.C42_false_precedence`, `Dedup.C42_false_style_reference`, `Dedup.C42_false_bar`, `Dedup.C42_false_region_repeats`, `Dedup.C42_told_apart_partial`, `Dedup.C42_false_foreign_attributes`, `Convert.C43_converts_iff`, `Convert.C43_shown_alike_partial`, `Convert.C43_false_container_times`, `Convert.C43_false_nested_clock_times`, `Convert.C43_false_microseconds`, `Convert.C43_false_body_style`, `Convert.C43_whole_document`, `Convert.C43_whole_shown_alike_partial`, `Fs.C44_read_back_partial`, `Fs.C44_appended_partial`, `Fs.C44_false_comma`, `Fs.C44_false_number_reused`, `Fs.C44_false_names_clash`, `Fs.C44_false_no_availability`, `Fs.Encoding.C113_false_not_ascii`, `Fs.C45_crash`, `Fs.C45_false_number_reused`, `Fs.C45_false_rotation`, `Fs.C45_false_tail`, `Fs.Encoding.C113_crash`, `Ws.C47_subscribers`, `Ws.C47_publishers`, `CmpXml.C49_elements`, `CmpXml.C49_distinguishes`, `CmpXml.C49_attribute_order`, `CmpXml.C49_comments`, `CmpXml.C49_white_space`, `CmpXml.C49_texts`, `CmpXml.C49_false_symmetry`, `CmpXml.C49_false_surrounding_white_space`, `CmpXml.C49_single_white_space`, `CmpXml.C49_escaped_line_breaks`, `CmpXml.C49_documents`, `CmpXml.C49_fragments`, `CmpXml.C49_quotes`, `Ids.C51_unique`, `Ids.C51_no_sharing`, `Ids.C51_lookup`, `Node.C52_blocks`, `Node.C52_clock`, `SegHead.C53_lookup`, `SegHead.C53_finds`, `SegHead.C54_segment_is_valid`, `SegHead.C54_references_resolve`, `SegHead.C54_regions_are_used`, `SegHead.C54_false_only_used_styles`, `SegHead.C55_extraction_succeeds_partial`, `SegHead.C55_exact`, `SegHead.C55_shown_partial`, `SegHead.C55_false_gap`, `SegHead.C55_false_nested_regions`, `SegHead.C55_false_no_styling`, `SegHead.C56_segment_shows_the_same_partial`, `SegHead.C56_leaves_partial`, `SegHead.C56_false_multiRowAlign`, `SegHead.C56_false_nested_regions`, `Convert.C57_shown_as_written`, `Convert.C58_font_sizes_kept`, `Convert.C58_sizes_converted`, `Convert.C58_line_heights_kept_partial`, `Convert.C58_false_shared_style`, `Convert.C58_false_default_size`, `Convert.C58_false_horizontal_size`, `Convert.C58_false_zero_size`, `SegHead.C59_resegmented_looks_alike_partial`, `SegHead.C59_all_or_nothing_partial`, `SegHead.C59_exact_partial`, `SegHead.C59_false_gap`, `SegHead.C59_false_body_style`, `SegHead.C59_false_geometry`, `Adapt.C61_filesystem`, `Adapt.C61_websocket`, `Adapt.C61_filesystem_xml_partial`, `Fs.Travel.C113_arrives_iff`, `Adapt.C63_delay_reaches_the_end`, `Adapt.C63_false_two_delays`, `Adapt.C63_false_encoder`, `App.C64_nobody_reads`, `App.C64_nobody_fails`, `App.C64_all_read`, `Xml.C68_visible_partial`, `Xml.C68_texts_partial`, `Xml.C68_kept_exactly_partial`, `Xml.C68_false_mixed`, `Xml.C68_false_grows`, `Size.C69_font_sizes`, `Size.C69_extents`, `Size.C69_origins`, `Size.C69_origins_partial`, `Size.C69_false_negative_origin`, `Size.C69_line_heights`, `Size.C69_line_height_values`, `Size.C69_one_unit`, `Size.C69_resolution_positive`, `Tt.C70_accepted_iff`, `Tt.C70_pixels_need_extent_partial`, `Tt.C70_pixels_convert_partial`, `Tt.C70_false_line_height`, `Tt.C70_false_zero_extent`, `Tt.C71_copy_accepted`, `Tt.C71_false_space`, `Tt.C72_takes_exactly`, `Tt.C72_takes_its_document_partial`, `Tt.C72_new_documents_partial`, `Tt.C72_false_gps`, `Tt.C72_false_smpte`, `Convert.C73_looks_alike_partial`, `Convert.C73_false_nested_styles`, `Convert.C73_false_multi_row_align`, `Convert.C73_false_padding`, `Convert.C73_false_body_style`, `Convert.C74_font_sizes_partial`, `Convert.C74_line_heights_partial`, `Convert.C74_false_width`, `Convert.C74_false_shared_line_height`, `Convert.C74_false_default_line_height`, `Convert.C75_references`, `Convert.C75_unique_identifiers_partial`, `Convert.C75_false_clash`, `Convert.C76_regions`, `Convert.C76_colours`, `Convert.C76_converts`, `Convert.C76_false_pixels`, `Convert.C76_false_zero`, `Convert.C76_false_empty_div`, `Clocks.C78_given_times`, `Clocks.C78_default_times`, `Clocks.C78_media_times_partial`, `Clocks.C78_clock_times`, `Clocks.C78_messages`, `Clocks.C78_false_media_loops`, `Clocks.C78_false_one_manifest`, `Clocks.C79_false_midnight`, `Clocks.C80_clock_names`, `Clocks.C80_begin_output_partial`, `Clocks.C80_resequencers`, `Clocks.C80_encoder_current`, `Clocks.C80_encoder_given`, `Clocks.C80_false_past`, `Clocks.C80_false_auto`, `Ws.C81_subscribers`, `Ws.C81_publishers`, `Ws.C81_all_delivered`, `Ws.C81_all_published`, `Adapt.C82_subscribers`, `Adapt.C82_subscribers_all`, `Adapt.C82_publishers`, `Adapt.plain_survives`, `Adapt.C82_false_inline`, `Ui.C83_increasing_partial`, `Ui.C83_consecutive_partial`, `Ui.C83_own_connection_partial`, `Ui.C83_false_scheduled`, `Ui.C83_false_offline`, `Ui.C83_false_reply`, `Ui.C83_false_recreated`, `Ui.C83_false_selected`, `Ui.C84_document_partial`, `Ui.C84_sent_partial`, `Ui.C84_server_partial`, `Ui.C84_enter`, `Ui.C84_false_ampersand`, `Ui.C84_false_markup`, `Time.C85_parse_ends`, `Time.C85_false_fresh_thread`, `Convert.C86_played_is_active_partial`, `Convert.C86_segment_played_partial`, `Convert.C86_whole_run_partial`, `Convert.C86_false_nested`, `Convert.C86_false_before_zero`, `Ws.Legacy.C87_answered_partial`, `Ws.Legacy.C87_every_message_partial`, `Ws.Legacy.C87_only_senders`, `Ws.Legacy.C87_false_not_ascii`, `Ws.Legacy.C87_clients_never_leave`, `Ws.Legacy.C88_delivery_partial`, `Ws.Legacy.C88_registered_are_open`, `Ws.Legacy.C88_false_configured`, `Node.C89_sequence_moves`, `Node.C89_behind_the_node_partial`, `Walk.C90_calls`, `Walk.C90_in_order`, `Walk.C90_everything`, `Walk.C90_outcome`, `Walk.C90_results`, `Walk.C90_timing`, `Walk.C90_segment`, `Node.C91_all_taken`, `Node.C91_shown`, `Node.C91_takes_over`, `Node.C91_single_producer`, `Seq.C92_logging_harmless`, `Print.C92_times`, `Print.C92_discarded_silent`, `Fs.C93_safe_partial`, `Fs.C93_catches_up_partial`, `Fs.C93_all_partial`, `Fs.C93_false_half_line`, `Fs.C93_false_number_reused`, `Fs.C93_false_rotation`, `Adapt.C93_documents_partial`, `Adapt.C93_all_documents_partial`, `Abc.C95_bases_partial`, `Abc.C95_handed_on_partial`, `Abc.C95_methods`, `Abc.C95_order`, `Abc.C95_exact`, `Abc.C95_registry_partial`, `Abc.C95_register`, `Msg.C96_carried`, `Msg.C96_arrives_iff`, `Msg.C96_read_back`, `Msg.C96_names`, `Msg.C96_travels_partial`, `Msg.C96_page_partial`, `Msg.C96_false_ignored`, `Msg.C96_false_element`, `Msg.C96_false_document`, `Msg.C96_false_rest`, `Msg.C96_false_type`, `Msg.C96_false_page`, `Doc.C97_segment_lines_partial`, `Doc.C97_segment_words_partial`, `Doc.C97_resegmented_lines_partial`, `Doc.C97_resegmented_words_partial`, `Doc.C97_false_blank_span`, `Doc.C97_false_mixed`, `Doc.C97_false_hundred_hours`, `Convert.C98_played_lines_partial`, `Convert.C98_played_words_partial`, `Convert.C98_segment_played_partial`, `Convert.C98_whole_run_partial`, `Convert.C98_false_forever`, `Node.C99_every_document`, `Node.C99_every_tick`, `Node.C99_segments`, `Node.C99_active`, `Convert.C99_played_partial`
