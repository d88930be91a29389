# Formal model of keripy in Lean 4

Source modelled: WebOfTrust/keripy at the commit in `/repo` (read as text, never run).
Properties: `properties.jsonl`. Theorem index: `MANIFEST.json`. Axioms per theorem: `AXIOMS.md`. Mutation log: `seeded/LOG.jsonl`; six lines there are marked `invalid`, as the edited definition itself did not compile and no theorem was tested. Three of these edits (`splitItems`, `escrowOne`, `make`) were repeated in a form that compiles, those of `infil`, `fresh1` and `changeConfig` were not.

## Trusted base

* Lean 4.33.0 kernel. No axioms are added. Each property theorem depends on `propext`, `Quot.sound` and `Classical.choice` at most; the exact
  set for each theorem is in `AXIOMS.md`. No `sorry`, `native_decide`, `bv_decide`.
* The hand translation from Python to Lean. Every definition cites the file and lines it mirrors and states its simplifications. Nothing is
  extracted mechanically.
* Environment assumptions, always visible as parameters or hypotheses, never as axioms:
  * cryptography: signature verification is an arbitrary predicate, digests are arbitrary values. Where a theorem needs freedom from
    collisions it takes it as a hypothesis about the events delivered (`NoColl`, `NoCollT`, `NoCollC`); where it needs that registry
    identifiers are digests, as `SelfAddressing`.
  * LMDB: a named sub-database is a finite map sorted by byte-lexicographic key order, cursor operations are those documented by
    py-lmdb, each write transaction is atomic.
  * clocks: dates are integers or yes/no answers ("is this too old now") supplied with the input.
  * JSON schemas: whether a credential fits a schema is an arbitrary predicate.

## Conventions

* Python exceptions are values, one constructor per exception class that callers distinguish, including the accidental ones
  (AttributeError, KeyError, ...).
* Text is `List Char`, bytes are `List Nat`, so that malformed input is expressible. Identifiers and digests are `Nat`.
* `Verif/<Area>/Model.lean` mirrors the code. `Spec.lean` holds the vocabulary of the statements. `Props*.lean` hold the property theorems.
  `Demo.lean` holds concrete runs: hypotheses met, and witnesses where the code does not have a property. Other files are lemmas.
* Theorem names begin with the property they belong to (`c55_entries_sealed`). The suffix `_partial` marks theorems weaker than the
  property; the doc comment says what is missing.
* Where the code lacks a property, the negation is proved from a concrete witness. All such cases are listed under "Disagreements".

## What is modelled

| area | files in `Verif/` | code |
|------|-------------------|------|
| Base64 and codes | `Codec/B64`, `Codec/Bits` | `help/helping.py`: intToB64, b64ToInt, codeB64ToB2, codeB2ToB64, nabSextets |
| primitives | `Codec/Matter*` | `core/coring.py` Matter: size tables, construction, `_infil`, `_exfil`, `_binfil`, `_bexfil`; whole code table |
| signatures | `Codec/Indexer*`, `Codec/PropsIndexer` | `core/indexing.py` Indexer, Siger: size tables, construction, the four conversions; choice of code in `core/signing.py` Signer |
| counters | `Codec/Counter*`, `Codec/PropsCounter` | `core/counting.py` Counter for both versions: tables, construction with promotion, conversions, enclose, byteCount, version codes |
| text primitives | `Codec/Texts` | Bexter, Number, Decimer, Dater |
| thresholds | `Thold/*` | `core/coring.py` Tholder: numeric and weighted thresholds, text and limen forms, satisfaction; `core/eventing.py` ample |
| key events | `Kel/Model`, `Kel/Run` | `core/eventing.py` Kever (incept, update, rotate, deriveBacks, valSigsWigsDel, validateDelegation, logEvent, escrow*), Kevery.processEvent, the escrows out-of-order, partially signed, partially witnessed, delegable, misfit and likely duplicitous, and their passes; `db/basing.py` stores written by them |
| crashes | `Kel/Crash` | acceptance as the list of its database writes |
| sources | `Kel/Source` | local/remote tests of Kevery and the event source records |
| receipts | `Rct/*` | Kevery.processReceipt, processReceiptQuadruples, processAttachedReceiptCouples/Quadruples and the receipt escrows |
| replies | `Rpy/*` | `core/routing.py` Revery: processReply, acceptReply, escrow of replies; Kevery reply handlers for endpoint roles, locations, key state notices, watched identifiers |
| databases | `Db/*` | `db/dbing.py` LMDBer: single values, ordinal keys, insertion-ordered sets and duplicates, branches, forward and backward iteration |
| registries | `Tel/*` | `vdr/eventing.py` Tever, Tevery with their escrows; Reger read-through cache and stored registry state |
| credentials | `Vry/*` | `vdr/verifying.py` Verifier; credential stores of Reger |
| key store | `Mgr/*` | `app/keeping.py` Manager (setup, updateAeid, incept, rotate, replay, ingest, move, sign), Creators and Creatory, Keeper stores; Encrypter, Decrypter and Salter of `core/signing.py` as far as they decide on success |
| version strings | `Prs/Version*`, `Prs/PropsVersion` | `kering.py` versify, deversify, rematch, smell; the regular expressions as explicit matchers |
| streams | `Prs/Stream`, `Prs/Model`, `Prs/Top` | `core/parsing.py` Parser: extraction with waiting, sniff, reap of bodies, all attachment methods of both versions, nested messages, groups, the loops of msgParsator, groupParsator, parsator and parse. The decoding of a body by its Serder class is a parameter (`Loader`); `onceParsator` is not modelled |
| built messages | `Prs/Messagize`, `Prs/Write`, `Prs/Spec` | `core/eventing.py` messagize; `core/structing.py` Structor.enclose; `core/counting.py` enclose, makeGVC |
| replay protection | `Krm/*` | `core/kraming.py` Kramer (intake, kramit with and without exchanges, partially signed messages, settings, changeConfig, reconcileConfig) and Pruner; `core/eventing.py` 4739-4743. Times are microseconds without the rounding of floating point; cues, the attachments that do not authenticate and the iteration over key prefixes are not modelled |
| peer to peer messages | `Exc/*` | `peer/exchanging.py` Exchanger (processEvent, escrow of partially signed messages, logEvent, complete), cloneMessage and verify; `vc/protocoling.py` and `acdc/ipexing.py` IpexHandler; `db/basing.py` resolveVerifiers. What is known of key events is a parameter that can change from step to step; other handlers are parameters; paths of attachments and the builders of messages are not modelled |
| mailboxes | `Mbx/*` | `app/storing.py` Mailboxer on the databases above; `app/indirecting.py` MailboxIterable, QryRpyMailboxIterable, Poller.eventDo and the queue of MailboxDirector as a system of provider and client that may die at any step; `app/forwarding.py` ForwardHandler.handle; the mbx branch of Kevery.processQuery. HTTP, the text framing of events and timeouts are not modelled; that a message is text and its digest are parameters |
| field maps | `Mad/*` | `core/mapping.py` Mapper (native serialization, SAIDs for every kind) Compactor.compact (not `trace` and `expand`) and Aggor; `core/coring.py` Labeler. The printed forms of numbers, UTF-8, the digest functions and the dumps of the other kinds are parameters |
| messages | `Ser/*` | `core/serdering.py` Serder and SerderKERI: the tables of fields, `makify`, `_validate`, `_verify`, `_compute`, `_exhale`, `_inhale` (the front of native CESR messages: `Cesr`); JSON is written out, MessagePack, CBOR, native CESR and all readers are parameters |
| habitats | `Hab/*` | `core/eventing.py` the builders `incept`, `delcept`, `rotate`, `deltate`, `interact` on the content of events; `app/habbing.py` `Habery.makeHab`, `Hab.incept`, `Hab.rotate`, `BaseHab.rotate`, `interact`, `sign`, over the models of the key store (`Mgr`) and of the node (`Kel`) |
| group and delegation workflows | `Grp/*` | `app/grouping.py` `Counselor`, `Multiplexor`, `MultisigNotificationHandler`; `app/delegating.py` `Anchorer`; over the node (`Kel`), each pass as the list of its writes. Receiptors and publishers work off what they are given |
| hand-over | `Hand/*` | `core/parsing.py` `msgProcess`, `asdict(MsgParseDom)`; `core/eventing.py` `Kevery.processMsg`. The processors are a parameter; `Hand/Kevery` puts in the Kevery of `Kel` and `Rct`, so that a node reads bytes |
| issuing | `Iss/*` | `vdr/credentialing.py` `Registrar`, `Credentialer` (calls, escrows, completion); over the node with registries and verifier (`Vry`), each call and pass as the list of its writes. Completion by the Counselor comes as input; Receiptor and WitnessPublisher work off what they are given |
| registries of blindable state | `Bsr/*` | `acdc/registraring.py` `Registry`, `Regery`; `acdc/registering.py` `RegistryStore`; over the node (`Kel`), each call as the list of its writes. The content of blinded states and the building of messages come as input |
| native messages | `Cesr/*` | `core/serdering.py` `_dumps` and `_loads` of the protocol KERI, the front of native messages in `_inhale`; `core/structing.py` seals in them; `core/coring.py` Pather, Traitor, Verser, Ilker as used there. `int(s, 16)` and the names that `namedtuple` admits are parameters; ACDC messages are not modelled |
| replay and clean | `Replay/*` | `db/basing.py` `clonePreIter`, `cloneAllPreIter`, `cloneEvtMsg`, `clean`, `statedict`; over the node (`Kel`). Receipts of others, dates and the sub-databases that `clean` copies unread are left out; the order of database keys is an input |
| typed sub-databases | `Sub/*` | `db/subing.py` `Suber`, `IoSetSuber`, keys, branches, codecs of Base64 texts and primitives; `db/koming.py` `Komer`, `IoSetKomer`; `help/helping.py` `dictify`, `datify`; over the `Db` model. Duplicate, ordinal and signer sub-databases and `getIter`-style iterators are left out; `dumps`/`loads` are parameters |
| introductions | `Oobi/*` | `app/oobiing.py` `Oobiery` (`processFlows` and all it calls, `processReply` after acceptance), the test of statuses of `Authenticator`. URLs and bodies are opaque, what is parsed from them is a parameter; the parser only records what it was given; contacts record what `Organizer.update` was told; whether a client can be made is chosen anew at every pass |
| contacts, watchers | `Org/*`, `Watch/*` | `app/organizing.py` `BaseOrganizer` without `find` and patterns: data is a dict of text and opaque values, a signature is the dict it signs, each write is a transaction of its own, the index of fields and the images are the key-value model of `Db`/`Sub`; `app/watching.py` `Adjudicator`, `diffState`: the order of the set of watchers and the random choice are parameters. |
| HTTP | `Http/*` | `end/ending.py` `signature`, `designature`, the text of `siginput`, `OOBIEnd.on_get`; `app/httping.py` `SignatureValidationComponent.validate`, `streamCESRRequests`. Texts are lists of characters; reading of primitives, verification, lower case and stripping, sizes of messages and states of identifiers are parameters |
| notices, signals | `Note/*` | `app/notifying.py` `Noter`, `Notifier`; `app/signaling.py` `Signaler`, the delivery of `SignalIterable`. Times and identifiers are numbers, a signature is the notice it signs, each write is a transaction of its own; the expiry is a machine that stops at each `yield`, with the change counter of a deque |
| talking to witnesses | `Agt/*` | `app/agenting.py` `Receiptor.receipt`, the sharing of `WitnessReceiptor`, `HTTPMessenger`, `TCPMessenger`, `WitnessPublisher`; `app/querying.py`. Answers of witnesses, what they do to the database, and endpoints are parameters; what doers do between two `yield`s is one step |
| endpoints | `Ends/*` | `app/habbing.py` looking up of roles and locations, `endsFor`, `replyEndRole` of both kinds of habitat, `loadEndRole`, `loadLocScheme`; `core/eventing.py` `updateEnd`, `updateLoc`. Which replies are accepted is `Rpy`; the order of entries is that of first writing |
| forwarding | `Fwd/*` | `app/forwarding.py` `Poster`, `StreamPoster`, `introduce`; `messengerFrom`, `streamMessengerFrom`. What is sealed, wrapped and introduced is given as bytes; random choices are inputs; messengers end |
| annotations | `Ann/*` | `core/annotating.py` `annot`, `denot`; `kering.py` `sniff`. The remarks after `#` are a parameter; classes of exceptions of wrong primitives are one |
| registries of own identifiers | `Reg/*` | `vdr/credentialing.py` `Regery`, `Registry`, `SignifyRegistry`; builders of `vdr/eventing.py`. Over `Tel`; digests of events made are inputs; names are numbers |
| notices of transaction state | `Tsn/*` | `vdr/eventing.py` `processReplyRegistryTxnState`, `processReplyCredentialTxnState`, their part of `processEscrows`; `db/escrowing.py` `Broker`. What the node knows (logs, key states, watchers, clock, what `acceptReply` returns) is given anew at each step |
| queries for transaction logs and state | `TelRep/*` | `vdr/eventing.py` `Tevery.processQuery`, `Reger.clonePreIter`, `Reger.cloneTvt`. Over `Tel`; messages are what the parser hands on, not bytes; queries that lack a field or a source are left out |
| the database in browsers | `Web/*` | `db/webdbing.py` `WebDBer.open`, `flush`, `close`, `WebEnv.open_db`, calls for single and numbered values and for branches. `SortedDict` as the entries in key order; JSON left out, a payload is its map of hexadecimal texts; one flush at a time, a sync that fails keeps what was kept before. Sets in order of insertion (940-1320) in `Web/Sets`. Sets at numbered keys in `Web/OnSets` (changes), `Web/BackSets` (counting, backward iteration) and `Web/LastSets` (last values forward, also those of `dbing.py`). Last values of all sets (1352-1408, and those of `dbing.py`) in `Web/AllLast`. Those at all numbered keys (1983-1987, and `dbing.py`) in `Web/AllLastOn`. Iterators over branches of sets (1323-1349, 1857-1889) are not modelled. The version (330-372) in `Web/Version`, versions as bytes, without None |
| configuration files | `Conf/*` | `app/configing.py` `Configer.put`, `get`. Codecs are parameters with what is assumed of them in `Lawful`; a file is its bytes, written in order; hio's `Filer` is opening and closing |
| schemas | `Sch/*` | `core/scheming.py` `Schemer`, `JSONSchema.load`, `CacheResolver.add`, `resolve`; `core/coring.py` `Saider._derive`, `verify`. JSON, digests, the text form of primitives and the draft of JSON Schema are parameters with what is assumed of them in `Lawful` (met by the world in `Demo`). Schemas with a field `v` at the top and checking credentials against schemas are left out |

Not modelled: SerderACDC and its native
serialization (`core/serdering.py`), most of `core/structing.py`, cryptographic operations (`core/signing.py`), builders of
other messages, group and remotely signed habitats, witnesses, the rest of HTTP, CLI, creation of credentials
(`app/`, `peer/`, `end/`, `vdr/`), blinding and messages of `acdc/`, concurrency of hio doers, cues, log output.

## Plan per property

| id | modelled | method |
|----|----------|--------|
| C01 | intToB64, b64ToInt on digit lists | positional notation lemmas, induction |
| C02 | codeB64ToB2, codeB2ToB64, nabSextets | arithmetic on big-endian integers |
| C03, C04, C06, C07 | Matter | whole-table check of the code table lifted by a lemma, generic Base64 block lemmas |
| C05 | Base64 block codec | homomorphism on 24-bit aligned lists |
| C08 | `_exfil` with the lenient decoder | partial and negation |
| C09, C50 | Matter construction, sizes | case analysis on residues, whole-table check |
| C10-C14, C49 | Tholder | clause sums over rationals, list induction |
| C15 | ample | arithmetic |
| C16-C30, C33, C35, C48, C51 | Kever and Kevery as a state machine | invariants by induction over histories |
| C31 | Kevery with all its escrows | safety over any history: an event accepted next after a prefix of the log is the next of the log; convergence by an invariant over pieces of messages (whatever is not yet accepted waits in an escrow with the signatures received) and progress of each run of `processEscrows` |
| C32 | acceptance as a list of atomic writes | case analysis on crash points |
| C34, C53, C54 | receipts | invariants over histories of key events and receipts |
| C36-C41, C52 | LMDBer over a sorted list | refinement to maps and ordered sets |
| C42, C43 | replies | decision logic, invariant over reply histories |
| C44-C47 | text primitives | round trip laws |
| C55-C62 | registries on top of the key event node | invariants over joint histories |
| C63-C69 | verifier on top of registries | outcome characterised exactly, invariants over joint histories, induction over escrow passes |
| C70, C71, C73, C75 | key store with every call as a list of atomic writes | invariants over histories with interruptions: what was told, the key sets of all identifiers are apart |
| C72 | path texts and creators | injectivity of digit texts, invariant over histories; negation |
| C74 | encryption of stored secrets, openings and changes of the identifier | invariant over histories |
| C76 | sign | exact characterisation |
| C77 | ingest and replay | induction over the ingestion loop and over replays |
| C78-C80 | Indexer, Siger, Signer | exact characterisation of what the parsers accept, reuse of the Base64 block lemmas |
| C81-C83 | Counter | the same; induction over nestings and streams |
| C84 | version strings | exact characterisation in both directions |
| C85, C86 | messagize and the parser | what each part of the parser takes from what is written, composed over groups, messages and streams |
| C87 | the parser as a coroutine over arriving pieces | a waiting parser is a parser on the longer buffer; induction over the pieces |
| C88 | generic groups | a parser on its own buffer never waits and gets shorter; induction over the buffer |
| C89 | attachments in both codings | as C85 |
| C90 | generic groups in generic groups | induction over the nesting, the stack of the loop as invariant |
| C91 | Kramer and Pruner over histories | what each delivery can change; invariant: in the cache, or too old for every setting to come; induction over the history. Exchanges: all of an exchange is dropped at once |
| C92 | as C91 | invariant: what waits came with the message and is good for the key state it waits for |
| C93 | as C91 | invariant: what is in the cache arrived in time |
| C94 | changeConfig, reconcileConfig, restarts | as C91 for narrowing; witnesses |
| C95 | changeConfig | patterns of messages |
| C96 | Pruner | induction over the entries; invariant over histories |
| C97 | the parser on arbitrary bytes | a Hoare logic over the generators: what every generator returns on any buffer; induction over the loops |
| C98 | changeConfig, reconcileConfig, restarts | what one cache type of the new settings does, induction over them; what waits is due |
| C99 | as C91 | the branches of a delivery, computed; invariant over histories: the signatures that wait are those that came |
| C100 | as C92 | what scrubbing leaves; the invariant of C92 |
| C101 | Exchanger over histories of deliveries and looks at what waits | what `processEvent` can do (drop, wait, save); invariant: saved is authentic, stored signatures came |
| C102 | as C101, handlers as parameters | the same; number of calls of the handler for answers |
| C103 | both IPEX handlers | what lets a message pass; invariant: the message answered is saved and of an earlier verb; induction on verbs |
| C104 | as C103 | invariant: a saved answer is noted, and a noted one that is saved stops others |
| C105 | as C101, one message followed | invariant: saved, or waiting with all signatures that came |
| C106 | as C101 | invariant: the time noted is that of a delivery; a look leaves only young ones |
| C107 | as C101 | invariant: contents are stored only with saved messages |
| C108 | as C101, cloneMessage | invariant: groups are in order and each contains one that came; more signatures are enough (C12) |
| C109 | Mailboxer on ordinal keys (C40) | invariant: entries of a key are the digests of its arrivals, messages are those stored |
| C110 | provider and client as one system | invariant: before each event handed on or under way all smaller numbers of its topic; positions are not ahead of them |
| C111 | as C110, without deaths | invariant: events of a topic are the first arrivals, positions and records are their number |
| C112 | as C110, forward | the invariant of C110; keys determine receiver and topic |
| C113 | requests sharing one deque of cues | invariants by induction on turns; a period without progress |
| C114 | as C103 | invariant: stored nested messages came together, and those of a message that waits include those of a delivery |
| C115 | as C101 | invariant: what has a time waits |
| C116 | Mapper on Matter, Counter and Labeler | round trip law by mutual induction on values, lists and fields; the bound on the reader's work is not reached |
| C117 | `_exhale` with dummies, Diger | the dummied serialization depends only on labels, other fields and codes |
| C118 | as C117 | the dummied serialization is injective |
| C119 | the loop of compact, round by round | each round replaces the innermost maps with SAIDs; by induction on the number of maps the loop computes a structurally recursive form |
| C120 | as C119 | induction over what is hidden and restated |
| C121 | as C119 | C118 at every level, by induction over the two maps |
| C122 | Aggor: making, verifying, disclosing and verifying disclosures | C117 for each element, by induction over the list; the disclosure is no longer than the whole, so the counter can be made |
| C123 | as C122 | the SAIDs in the digested list can be told apart one by one, then C118 for each pair of maps |
| C124 | as C122, with the reading of native CESR | C116 for each map, reading of primitives for each digest |
| C125 | the tables of fields, `makify` from any map, JSON written out character by character | what `_validate` finds in the made message is what `makify` had before the digests were put in; the length of the serialization does not change when texts are replaced by texts of the same length |
| C126 | two messages as C129 shows them to be, with the same digest | the digests are of the same bytes or collide; JSON is injective (`json_inj`, by induction on values) |
| C127 | `_validate` and `SerderKERI._verify` on any map | the checks of the code on lists of labels are the form of the type (`fieldsOk_iff`) |
| C128 | `SerderKERI._verify` | decision logic stated outright |
| C129 | `_inhale`, `_exhale` and `_verify` with a reader that reads what is written | what `_verify` computes has the bytes of the message, so reading it gives the fields of the message |
| C130 | `Hist`: histories of calls, other messages and restarts over key store and node | invariant (`Inv`) of key store, node and their agreement, by induction; effects of `Mgr.rotate`, `Mgr.move` (KeyLemmas, MakeLemmas) and of processing one's own events (OwnLemmas) |
| C131, C132 | the calls in any state of a history | case distinction on how far a call gets (`RotDone`, `IxnDone`, `MakeDone`), liveness of `processEvent` for built events (LiveLemmas) |
| C133, C134, C135 | rotations in any state of a history | the same |
| C136 | `crashRotate`, `crashErase`: stops between writes | the invariant with the key sequence of one identifier ahead of its log is kept by all later histories, and no rotation succeeds under it |
| C137, C140 | `Hist`: histories of calls, passes, receipts, changes of the node and stops | invariants: what is in an escrow has a past (`CInv`, `AInv`), at every write |
| C138, C141 | the same, with the steps that lose events excluded | invariant: the entry is somewhere (`Held`, `Kept`); witnesses for the excluded steps |
| C139, C142 | one pass; histories after a restart | an entry is followed through the three parts of a pass; invariant of what can never happen again (`Same`, `Idle`) |
| C143 | prefixes of the writes of a pass | every write of a place of approval comes from a search for the seal |
| C144, C145, C146 | `run`: sequences of messages and own calls, with stops | invariants on the stores (`Inv`, `Done`) |
| C147, C148, C149, C150 | `msgProcess` over any processors, fed with what `parsator` reads | C87 and equality of dictionaries; case analysis of the dispatch against `Fits` and `due` |
| C151, C152 | `Procs.onKevery`: hand-over, parser and node together | every call is an input of the node models, so all their theorems apply |
| C153, C157 | histories of calls, passes, events of the node, stops; past moments by `Was`, `Asked` | invariants (`IInv`, `MInv`) over every write; logs and credentials by the invariants of `Tel` and `Vry` |
| C154, C155, C156, C158 | the same; guards on steps | invariants over passes cut into treatments of entries; restarts: invariants `Stuck`, `Silent` |
| C159 | call or pass of the Registrar followed by the pass over waiting events | acceptance of what is next and sealed (`Tel.accepted_next`) |
| C160, C161 | Registry and store, writes of calls in order | invariant of the store kept by every write (`SInv`), so by every prefix |
| C162 | the same | blocks of writes that commit keep `UpToDate`; frames per registry for what fails |
| C163 | anchors stored with the node they were verified against | invariant with the moment of verification in the history (`Was`) |
| C164 | results of calls | case analysis of the calls |
| C165 | escrows | every removal has a reason (`Reason`); guards on steps |
| C166 | pass over both escrows | `found` (a seal in the log is found), induction over the chain, termination of the queue (`drain_stops`) |
| C167 | sort of the queue | order is total and transitive, first commit of the sorted list |
| C168 | `blind` | decision logic with `UpToDate` |
| C169 | records, memory of the Regery | only `makeRegistry` writes records (`NoRec`); invariant of aliases |
| C170 | `native`, `loads` field by field | reading of each primitive and group from the front of a stream, induction over fields and over seals with the open group as accumulator |
| C171 | C170 with SAIDs replaced by dummies | equal bodies, types read from the front, runs of dummies end at a number, C170 for the fields after them |
| C172 | `native` with other version strings | induction over fields; then C125 |
| C173 | `inhaleText`, `inhaleBinary` | counters tell the length (C82), C170; in binary the failure for every message |
| C174 | `clonePre`, `replay` | induction over the history of the replaying node: each first-seen event is accepted by a node that took the ones before (monotone thresholds, derived authorities); frame lemma for other identifiers |
| C175 | `clean` | the copy is a run of the node over held events; C174 for each identifier in turn |
| C176 | join and split | round trip by list induction |
| C177 | `Suber`, `Komer` over `Db` | refinement to a partial map on tuples |
| C178 | `IoSetSuber`, `IoSetKomer` over `Db` | C37 transported through keys and codec |
| C179 | branches | C40 with prefixes of keys as prefixes of tuples |
| C180 | codecs | round trip laws; C03, C06 for primitives; mutual induction on types for records |
| C181 | places of a URL | invariant over all steps: a URL leaves a table only for another one |
| C182 | results | invariant; witnesses |
| C183 | passes | induction over requested URLs; invariant of histories with a URL that has the separator; witnesses |
| C184 | schemas | invariant over records in all tables |
| C185 | aliases | invariant over records in all tables; witnesses |
| C186 | multi-OOBIs | induction over the list of URLs |
| C187 | well-known authentication | decision logic |
| C188 | contacts | refinement to a map of maps; invariant of data, signatures and index |
| C189 | list of contacts | from the invariant, order of keys |
| C190 | finding contacts | from the invariant |
| C191 | altered contacts | invariant over histories with an adversary |
| C192 | interrupted changes | case analysis over all prefixes of writes |
| C193 | images | keys are injective; induction over chunks |
| C194 | duplicity reports | decision logic, equivalence with a separate specification |
| C195 | recommended updates | decision logic |
| C196 | honest watchers | consequence of C194 |
| C197 | Signature header round trip | split and join inverse on clean texts |
| C198 | merging headers | split of an append |
| C199 | validation of signed requests | decision logic |
| C200 | streams as requests | partition by induction on the stream |
| C201 | signed text of requests | injectivity of the text |
| C202 | serving introductions | decision logic |
| C203 | notices read back | refinement to a book of notices |
| C204 | altered notices | decision logic over any database |
| C205 | pages of notices | specification of the loop |
| C206 | signals delivered | specification of the queue by induction from the end |
| C207 | expiry of signals | invariant over interleavings; undisturbed round by induction |
| C208 | receipts gathered and shared | loops by induction, any answers |
| C209 | receipts shared by position | exact condition |
| C210 | idle messengers | invariant over interleavings |
| C211 | publishing to witnesses | invariant over interleavings |
| C212 | ends of queries | decision logic; rotation of the queue by induction |
| C213 | endpoints looked up | induction over histories of replies; membership |
| C214 | endpoints that messages are sent to | as C213; witness of a role that was cut |
| C215 | replies on endpoints | membership in the stream, over histories; witnesses |
| C216 | the same for keys held elsewhere | as C215; when it raises |
| C217 | one message posted | decision logic; induction over endpoints |
| C218 | queue of messages | induction over the queue; rotation of cues |
| C219 | streams in chunks | induction over rounds and events; witnesses |
| C220 | introductions | decision logic |
| C221 | annotated messages, line by line, and the taking apart of lines | one spelling per primitive in the alphabet, induction over fields and lines; witnesses |
| C222 | the loop of `annot` with a number of turns | case analysis; induction over turns for the negation |
| C223 | the end of a message, its types | decision logic over the reading of C221; witnesses |
| C224 | store of records, objects in memory, restarts | invariant over histories; witnesses for used names |
| C225 | events made by a registry, then the processing of `Tel` | built events are next in their log; C60's argument through sealing |
| C226 | the builder's checks against those of processing | the former imply the latter; witnesses after restarts |
| C227 | the two calls that always raise | decision logic for all states |
| C228, C229 | handlers of notices over any knowledge at each step | invariant over histories; decision logic; witnesses |
| C230 | escrows of notices, turn by turn | invariant over turns; progress by splitting the turns; witness of the limit |
| C231 | what waits and what is asked for | decision logic for all states |
| C232 | the iteration over logs and what a receiver does with it | invariant of reached states for the answer; induction over the log with an invariant relating the two nodes |
| C233 | the route for states | decision logic with the invariant of reached states |
| C234 | calls of the database in browsers beside `Db` | each call equal, then induction over calls |
| C235 | a store, what is being synced and what is kept | round-trip law, invariants over histories |
| C236 | calls for sets in browsers | each call equal to that of `Db`, refinement to the sets of C37 |
| C237 | configuration files with the states a put goes through | refinement to a register |
| C238 | schemas, their identifiers, caches | decision logic, round-trip law, invariant over additions, binding up to collisions |
| C239 | what calls for sets mark, appending sets and removing them from a number on in browsers | invariant over histories as in C235; equality with `Db` where that appends; loss proved for all stores |
| C240 | removing sets from a number on, on disk and in browsers | the entries that stay as a filter, from the order of keys; equality of both loops |
| C241 | counting and backward iteration over sets at numbered keys in browsers | loops as filters of the items iterated forward; last values by equality with the loop of C41 |
| C242 | iteration forward over last values of sets at numbered keys, on disk and in browsers | both loops as the last items of runs of equal numbers, these by induction; without a key from C243 |
| C243 | iteration over the last values of all sets, on disk and in browsers | loops equal; last items of runs of equal keys, which are together by the order of keys |
| C244 | the version of a database in browsers: set, read, flushed, closed | invariant over histories: what is remembered is stored; keeping from the invariant of C235; loss after closing proved for all states |

Nothing is marked not applicable.

## Disagreements

Behaviour of the code that contradicts a property, each proved from a concrete run of the model unless marked (text only).

Primitives and thresholds
* The text parser accepts '+' and '/' for '-' and '_', so a primitive has several texts (`c08_malleable`).
* `Matter(code, soft)` without raw makes a primitive with no text form for codes that need raw bytes (`c03_special_no_text_form`).
* A text cut right after the hard code raises something other than a shortage (`c07_text_not_shortage`).
* Decimer reads 1e+16 back as 1e-16 (`c46_exponent_sign_flips`).
* A numeric threshold counts list entries, so one key can count twice (`c13_numeric_repeats`, `c49_one_key_counts_twice`): signatures are
  compared as texts, and one signature has several texts by its code. The same holds for witnesses (`c21_one_witness_counts_twice`) and
  registry backers (`c61_one_backer_twice`).
* A weighted threshold that is met stops being met when a signature with an index beyond the weights is added (`c12_not_monotone`).
* `Tholder(thold=...)` accepts no clauses at all and weights above one; the former have no readable text form, the latter lose their fraction in it (`c14_no_clauses`, `c14_above_one`).
* `Indexer` (not `Siger`) accepts raw bytes for the test code '1z' and then has no text form; with '0z' a missing other index reads back as the index (`c78_test_codes`).
* A version 1 counter of more than 4095 entries raises KeyError unless its code has a long form (`c81_v1_key_error`).

Key event logs
* A `drt` event is accepted on an identifier that is not delegated; it can replace the last rotation, is accepted again on replay, and can leave
  the log without a chain of digests (`c24_rotation_superseded`, `c18_twice_with_drt`, `c27_replay_accepted`, `c16_chain_broken`).
* A `drt` that supersedes a `drt` is checked against the commitments of the event it replaces (`c20_superseding_drt`).
* The cuts and adds of a recovery rotation are ignored (`c22_recovery_ignores_cuts`).
* A rotation that names the witnesses (or backers) to be removed in another order than they have in the list is refused, and cannot be built: the
  check that all of them are in the list compares two ordered sets, which minds the order (`c51_cuts_in_order`, `c51_cuts_refused`).
* Duplicity is never recorded: the escrow calls a method that does not exist (`c28_not_recorded`), and marks the event as local on the way, so
  that a remote event can drive an own identifier later (`c30_laundered`).
* After a recovery of the delegator or registry issuer, seals in superseded events still count (`c29_superseded_anchor`, `c55_superseded_seal`).
* Signatures stored unverified by an escrow stay after acceptance (`c33_unverified_kept`).
* A crash between the first-seen entry and the key state leads to a second first-seen entry, or lets another event take the place
  (`c32_first_seen_twice`, `c32_crash_replaced`).
* (text only) `bossn.Ilk` at core/eventing.py:3428 is no attribute; the climb in validateDelegation always asks for the same delegator;
  `ksr.pre` in the notice handler is no attribute; statedict.get does not read through.

Receipts
* A receipt's staleness test compares the receipt's digest with itself: receipts for superseded and for never accepted events are stored
  (`c34_superseded`, `c34_duplicitous`), group signatures are filed under the event that superseded the one signed (`c34_misfiled`), an
  unknown event raises (`c34_unknown_raises`).
* Witness receipts attached to events are stored as those of watchers (`c34_attached_witness`); an index is looked up in the current witness
  list for an old event (`c34_index_shifted`).
* The test that own receipts come from here is not repeated for waiting receipts (`c53_through_escrow`).
* An early indexed witness receipt is lost when its event is accepted at once (`c54_witness_never_stored`, `c54_witness_receipt_lost`).

Replies
* Endorsing under an older establishment event lowers the bar for later replies (`c43_old_keys_lower_bar`); the clean up of old signatures
  raises after it removed the old record (`c43_clean_up_raises`); a reply that times out in escrow erases the accepted one (`c43_escrow_erases`).
* Key state notices are kept by event digest: sources replace each other's, and may go back (`c42_shared_notice`, `c43_notice_goes_back`,
  `c43_notice_erases`).

Databases
* Keys that are another key followed by the separator and 32 hex digits break sets and ordinal stores (`c37_nested_keys`, `c38_nested_keys`). Further
  trouble: repeated values in one put, keys that begin with a dot, numbered puts and empty values (`c38_empty_item`, `c39_repeated`, `c39_dot_key`,
  `c39_numbered_put`, `c38_append_repeats`).
* Ordinals beyond the documented maximum are out of order (`c36_overflow`).
* Backward iteration raises for a missing key and may start above the number asked for (`c41_missing_raises`, `c41_dup_starts_above`); forward
  iteration over last values does not end with a separator other than the default (`c41_last_forward_sep`).

Registries
* The log of a credential is shared by all registries: whoever has any registry can revoke a credential of another or occupy its log
  (`c57_foreign_revocation`, `c57_foreign_issuance`, `c62_own_credential_revoked`), or that of a registry (`c58_squatted`).
* Registry rotations are not stored: after a restart the state is that of the inception, and the registry can fork
  (`c59_rotation_forgotten`, `c58_forked_after_restart`).
* A wrong source seal delivered first sticks to a waiting event (`c60_wrong_seal_sticks`, `c60_wrong_seal_reported`). Of several events that
  wait for one credential all but one are dropped (`c60_sibling_dropped`). Events that lack backer signatures are never tried again
  (`c60_backers_never`). A pass for remote events drops own waiting ones (`c60_own_dropped`).
* The backer threshold for credential events is taken from the registry event they refer to, accepted or not (`c61_backers_bypassed`).

Credentials
* The issuer a credential names is not compared with the issuer of its registry (`c65_foreign_registry`), and the status of a credential does
  not depend on the registry asked, so that a credential can be forged in the name of any issuer and registry (`c65_foreign_event`).
* Revoked credentials are saved (`c66_revoked_accepted`).
* The anchor of a credential is stored unchecked and replaced by later deliveries (`c69_anchor_replaced`).

Key store
* Key paths have no separators: identifiers with indices 1 and 16 can get the same key (`c72_same_path`, `c72_shared`), and rotating the one erases
  the key of the other (`c72_erased`).
* Interruptions: an inception can block all later ones with the same settings (`c75_incept_blocked`), a rotation the identifier
  (`c75_rotate_blocked`) or pass over the keys committed to (`c70_skips`); a move leaves neither name usable (`c75_move_stuck`); a change
  of encryption leaves keys no seed reads (`c75_update_mixed`); the root salt can be lost at first opening (`c75_salt_lost`).
* Encryption: `ingest` stores the keys it creates in plain text, unreadable (`c74_ingest_plain`); setting an authentication identifier later
  leaves all keys plain and unreadable (`c74_later_plain`); a refused change has replaced the encrypter (`c74_refused_used`); a new seed for the
  same identifier is not checked (`c74_same_unchecked`); a seed without identifier makes keys unreadable (`c74_seed_alone`).
* A key that cannot be encrypted raises after the situation was stored; the identifier cannot be rotated any more (`c71_code_stuck`).
* `ingest` accepts a starting position one past the end, with no current keys (`c71_ingest_end`).
* Keys not erased at once are never erased (`c73_kept_once`).

Messages
* The size of a version 1 message of 16 MiB or more overflows the version string without an exception (`c84_oversize`).
* A counter whose count is not Base64 makes `parse` run forever: the exception is logged and the same bytes are tried again (`c88_livelock`).
* Any other failure in a message drops the whole rest of the stream, even if the group that failed tells its size (`c88_flush`).
* A message without attachments is dropped at the end of a framed stream (`c85_bare_dropped`), likewise one with an empty attachment group
  (text only).
* A framed stream cut between two attachments of a group is taken for a complete message with fewer attachments (`c86_truncated`).
* A second attachment group of a message is skipped (`c85_second_group`).
* After a generic group a stream counts as framed for good; a message arriving in parts after it is lost (`c87_after_group`).
* Text only: errors after a generic group are no longer taken for errors of the stream; the version of a group entered earlier can stick to
  a later one (line 836 compares where it should assign); `self.version` is not restored when a body fails after an inner change of version;
  in version 1 a change of version followed by a generic group raises AttributeError; a body cannot follow directly the counter of a generic
  group; native field-map bodies are never parsed (`labeler.fullsize`); a malformed nested message, or a generic group of less than eight bytes,
  on a stream that is not framed waits forever; messagize writes bonds of SealLast, SealDigest, SealRoot and SealBack and receipt groups of more
  than 4095 quadlets that the parser does not read; `nest.encode()` is discarded (eventing.py:1900).

Replay protection
* Once the signatures of a multi-key message that arrived one after the other satisfy the threshold, the message is handed on again with every
  further delivery: the partially signed escrow is not cleared (`c91_multi_replayed`).
* A message accepted for a seal is dropped from the cache by the short lag and accepted again for its signatures by the long one
  (`c91_seal_replayed`).
* A message that begins an exchange, stamped ahead of the clock within the drift, is pruned at once and accepted again (`c91_ahead_replayed`).
* A message late in an exchange is pruned while it is still timely if other cache types keep the exchange longer (`c91_late_replayed`).
* Changes of settings: the wait before a wider window takes effect is too short (`c94_widened`); removal of a cache type takes effect at once
  (`c94_removed`); restarts forget what is waiting and apply it (`c94_restarted`); a change taken back takes effect nevertheless
  (`c94_taken_back`); removal of a cache type with a change waiting makes every message an AttributeError (`c94_stuck`).
* The drift of a cache type that is there is never changed by a change of settings (`c98_drift_kept`); cache types that are no longer configured
  stay in force after a restart (`c98_left_over`).
* A message with a valid seal is handed on with whatever is attached as signatures of the sender, verified or not (`c100_sealed_unchecked`).
* Text only: the drift of a change is ignored but used as the old one at the next change; the field x of an exchange message that is a front part
  of, or contains a dot after, the identifier of another exchange matches that exchange; a digest with a dot makes the Pruner fail; denials are
  front parts of texts (/end/role also denies /end/rolex).

Peer to peer messages
* A message may be signed with keys that have been replaced: any event of the sender will do (`c101_old_key`). A signature without index is not
  asked whether the sender can change keys: whoever has the first key of an identifier named by it can sign for ever (`c101_first_key`).
* Messages that open a conversation, and all messages of routes whose handler does not remember them, are handled each time they come
  (`c102_twice`).
* The first IPEX handler judges the message answered by the last part of its route, of any route (`c103_foreign_route`). It lets a grant be
  spurned, the second one does not (`c103_spurned_grant`).
* Nobody asks whether the one who answers is the one who was asked (`c104_stranger`); a message of any other route takes the place of the answer
  (`c104_blocked`).
* A worthless signature that names a later event of the sender keeps a message that waits from ever being saved: all groups must be good, and
  signatures are not removed when the message is dropped, because `esigs.rem(dig)` names no entry (`c105_poisoned`, `c106_kept`).
* The contents of a sealed message are not kept while it waits for signatures, so it is dropped when they are complete (`c107_lost`).
* A saved message becomes unreadable when it is delivered again with worthless signatures, since they are added to those stored (`c108_unreadable`);
  then no answer to it is accepted (`c108_no_answer`). Such a delivery also replaces the attachments of the saved message (`c108_replaced`).
* Text only: IPEX messages with ESSR attachments fail with a TypeError, because neither handler takes them.

Mailboxes
* Topics of forwarded messages are not looked at, and the entries of a topic `c.0` lie between those of the topic `c`. One message for the topic
  `credential.00000000000000000000000000000000`, which anyone may forward, and nothing can be stored for `credential` any more (`c109_jammed`) or read past it
  (`c109_hidden`).
* One message that is not UTF-8 (CBOR or MGPK, say) makes every read of all topics fail (`c110_poisoned`).
* After a gap the provider sends the same messages again with each turn: `idx = idx + 1` should be `fn + 1` (`c111_twice_gap`). Gaps come from stores that were interrupted
  between the two writes of storeMsg (`c109_gap`).
* A client that dies loses messages whose number it has recorded but which are still in its queue (`c110_lost`), and parses one twice if it dies
  before recording it (`c111_twice_crash`).
* Numbers of deleted messages are given again (`c109_reused`).
* A mailbox query is answered whoever asks, signed or not (`c112_anyone`).
* Two requests can pass each other their cues for ever (`c113_starved`); cues of requests that are gone are never removed.
* Text only: `appendToTopic` passes an argument `key` that `append` does not take (storing.py:78); `Poller(msgs=…)` drops what it is given
  (indirecting.py:753); `TimeoutMBX` is thirty million seconds.

Field maps
* A text that is exactly a primitive is written as it is, and `+` and `/` are read as `-` and `_`: `MA+A` comes back as `MA-A`. Large numbers are worse: `1e+16` has the same
  serialization as `1e-16` and is read as that (`c116_counterexamples`), so a map with the one has the same SAID as a map with the other (`c118_counterexample`).
* Reading is lenient: labels given twice, groups that end before their count, and in strict mode labels that strict mode would not write (`c116_lenient`). The SAID
  is checked on the map that was read, so many serializations have the same SAID.
* The soft part of codes such as `X` is not checked for Base64, so there are maps that can be serialized but have no binary form (`c116_not_base64`).
* A SAID does not commit to the digest code of another SAID field of the same map: `#` takes its place whatever the code, for codes of one size (`c118_other_saids`).
* For JSON, CBOR and MGPK a SAID field with a primitive that is not a digest raises UnboundLocalError, since mapping.py:631 refers to a name of the other branch.
* Paths are texts joined with dots, so a nested map with a SAID under a label that has a dot is never found again, and `compact` does not end; nor does it end for a map
  that has only a SAID field other than the first (`c119_counterexamples`). If such a map is nested it is replaced by null, so that any other such map may take its place
  under the same SAID (`c121_counterexample`).
* `compact` replaces the SAIDs stated in nested maps without looking at them. An expanded map whose stated SAIDs are false has the same compact form, and so a message whose
  SAID is computed from the compact form is accepted with them.
* The mappers made for nested maps are strict whatever the compactor is. `trace` serializes as CESR whatever the kind. `compact` leaves `raw` and `count` as they were.
* In JSON, CBOR and MGPK an element of an aggregate that lacks the SAID field is committed to as null, so that any other such map may take its place, and its disclosure
  as null does not verify (`c122_counterexample`). CESR refuses such elements.
* `verifyDisclosure` applies the strict rule for labels whatever the aggregate was made with, so the disclosures of an aggregate made without it are refused; it accepts
  elements that have something after the digest, or a digest spelled with `+`; and on the empty list it raises IndexError (`c122_lenient`).

Messages
* The SAID in `d` does not commit to the digest code of the prefix: two inceptions with the same SAID and prefixes under different digest codes are both accepted
  (`c126_said_not_all`). That the prefix of a self-addressing inception is its SAID is not checked.
* The size in the version string is compared as `size != self.size != len(raw)` (serdering.py:720), which is false as soon as one of the two is right. It does no harm: the
  version string computed from the fields must give the same bytes (`c129_accepted_right`).
* `_verify` compares bytes only (701), so in native CESR what is in the fields but not in the bytes is not checked. `_dumps` leaves out of the bytes any anchor that is not
  a known seal (1781-1796), so it is neither sent nor covered by the SAID.
* The type of an `acm` message is optional; without it the message is taken for one without type (serdering.py:498-502).
* Text only: `labeler.fullsize` (186) for `fullSize`; `sraw = encodeB64(raw)` (1194) encodes all of the stream; `Mapper(qb64=raw)` (1540, 1553) for a text that is not only
  the map; the default `compactify=eval` (834).

Habitats
* The builders accept a weighted threshold with fewer weights than keys (eventing.py:615, 779). `BaseHab.rotate` signs with all keys; indices without a weight make
  `Tholder.satisfy` false, so the node escrows the event as partially signed, and the MissingSignatureError is passed over (habbing.py:1391-1393). `Hab.rotate` then reports success
  and erases old keys, while the key state has not changed: key store and log disagree and the identifier cannot be rotated any more (`c130_short_weights`, `c131_short_weights`).
* A refused rotation leaves behind the keys it made after the next ones. The next rotation takes them whatever `ncount` says, so one mistaken `rotate(ncount=1)` with threshold two makes
  every later `rotate()` fail (`c134_stash`, `c134_stash_default`); `rotate(nsith=...)` with a threshold for the keys left behind is the way out.
* The key store advances before the event is logged. If the process stops between the two, the identifier can never be rotated again (`c136_stuck`). The roll-back
  (habbing.py:3078-3082) works for exceptions only.
* `makeHab` moves the key sequence to the new prefix before it finds the name taken; the keys stay in the key store under the prefix, so the same identifier cannot be made again
  under another name (`c132_make`).

Groups and delegation
* The Counselor does not compare the digest of what is logged at the number of an event with that of the event it was given. If another event is logged there, it reports the
  one it was given complete though that was never logged (`c137_other`).
* `gpse.rem(keys=(pre,))`, and likewise for `gdee` and `gpwe`, removes all entries of the group, not the one at hand (grouping.py:152, 210, 222, 227, 254). Of two events that wait one is lost
  (`c138_two`). Entries are removed before what comes after has succeeded: a stop or an exception in between loses the event (`c138_crash`, `c138_raise`).
* That the Receiptor is done is known from memory only. If the member with the first key restarts in between, its event is never complete (`c139_stuck`). The same of the publishers
  of the Anchorer, which are known by identifier: after a restart, or when one delegation is complete while a second of the same identifier waits, nothing is completed
  (`c142_stuck`, `c142_no_publisher`).
* Which member takes the event further is decided by the least index of the signatures in one place (grouping.py:160-163) and by the first key in others (206, 244).
* The Anchorer removes entries before it adds them to the next store; a stop in between loses them (`c141_crash`). It enters the place of approval for the last event of
  the identifier, which may not be the approved one (`c143_other`).
* In messages of the first version between members, `e.d` names the proposal and is never compared with what the block holds. Anybody, not only members, can send a message that names a
  proposal the host has approved and wraps another event, which is then processed with `local=True` (`c144_other`). Nested messages attached to such a message are stored
  and replayed instead of what it wraps, though nobody signed them (`c144_attached`).
* A block with a dict that is no message makes `_replayApproved` raise; sent by anybody before the host makes the proposal it makes the own `add` fail, so the proposal is never approved
  (`c145_blocked`). A message whose handling is interrupted after it was stored is not taken up again (`c145_crash`).
* The commands of the CLI call `mux.add(serder)` without nested messages; an own message of the second version would be refused.

Hand-over
* A query of version 1 without signature group of a transferable requester raises KeyError: `exts['source']` (parsing.py:1456) is read although only set with such a group. Queries of
  non-transferable requesters, which the code means to serve ("need one or the other"), are dropped (`c150_couples_lost`).
* The deny and allow lists and the replay protection (KRAM) are applied to messages of version 2 only, and only if the parser has a Kevery (parsing.py:1376; `c149_v1_ignored`).
* Receipts attached to a key event are handed over after the event and only if it raised no exception. An event put into an escrow raises one, so its attached receipts are dropped;
  the same receipts in a receipt message would wait (`c151_receipts_lost`, `c151_early`).
* An AttributeError inside a processor is reported as a missing processor (parsing.py:1413).

Issuing
* `incept`, `issue` and `revoke` take the anchoring key event, but for a single controller the source seal entered is that of the last key event accepted. If another one was logged in between,
  or the anchoring event still waits for witnesses or a delegator, the seal is wrong; seals are not replaced, so the event never enters its log (`c159_other_event`).
* Passes remove an entry from one store before adding it to the next: a stop in between loses the request (`c154_crash_lost`, `c154_crash_lost_group`, `c158_crash_lost`).
* Collected receipts and finished messages are kept in memory. After a restart events waiting for receipts wait forever even though the receipts are there (`c155_restart_waits`), events that
  are complete are reported as incomplete (`c155_restart_unreported`), and credentials whose issuance was sent are never reported as issued (`c158_restart_never`).
* `complete` asks whether anything was sent for the log, not whether the event was: a revocation is reported as complete before it is sent (`c156_revocation_early`).
* The number of receipts is compared with the number of witnesses the controller has now, not at the event; after a change of witnesses events can wait forever.
* `SignifyRegistry.rotate` compares a hex string with a number, `SignifyRegistry.revoke` makes a credential serder of a registry event (read, not modelled).

Registries of blindable state
* `accept` writes the event, the log and the head one by one. A crash between the last two leaves a head that is behind the log. Updates made by the registry are then refused for good, and no
  pass, restart or new opening repairs it (`c162_stuck`, `head_behind`, `refused`).
* Anchors are looked up in the log of the habitat which the object has. `Registry(hab, store, regk=…)` does not compare it with the issuer of the registry, and an object without registry takes
  an update as its first event, so that another identifier can seal updates (`other_log`). A stored anchor is not checked again after a recovery of the log.
* An event is taken out of the escrow of missing anchors before it is committed or queued; a crash in between loses it (`lost`).
* The queue prefers the update whose seal comes first, all other ways of acceptance the one that comes first (`later_wins`).
* `blind` numbers an update after the head, not after updates that wait. Two updates made in a row compete, and the one that loses is dropped although it is sealed (`dropped`).
* `regd` is set to the event of the last call even if that event was accepted long ago (`goes_back`).
* In `_processMissingAnchors` the digest read from the escrow is a tuple, so that line 337 finds every accepted event different from it; the entry is cleared either way.
* An alias that contains "." is recorded under a key which `loadRegistries` cannot unpack; every later opening raises (`c169_dotted`, `unloadable`). A crash before the record leaves an inception
  without alias (`orphan`).

Native messages
* Elements of `a` that are not one of the seven known seals, or whose values are malformed, are left out of the bytes without an error, and `a` given as text is written as the empty list. The
  SAID does not cover them, so two messages with different anchors have the same bytes and SAID (`c171_counterexamples`).
* Digests, prefixes, nonces and the elements of lists are written as given. An empty `p` (as in `ri`, `x`, `u`) writes nothing, and the message cannot be loaded (`c170_unreadable`); the lists
  `["AB", "CD"]` and `["ABCD"]` have the same bytes. Routes with `-` for `/` have the same bytes, dates are cut at 32 characters (`c171_counterexamples`).
* More seals of one kind in a row than 4095 quadlets are written with a big group code, that `_loads` does not know (`c170_big_run`).
* Numbers given as integers or None are read back as hex text, a threshold that is a mapping as the list of its keys (`c170_changed`).
* In the binary domain `_inhale` encodes the stream after stripping and not the bytes of the message (serdering.py:1194). With `strip` no message at the end of a stream is read
  (`c173_binary_strip_fails`), and of two messages the second one is given in place of the first and stays in the stream (`c173_binary_swapped`).
* `c126_commits_native` asks for a reader of messages with dummies; `_loads` is none, since `#` is no primitive. C171 is proved of the bytes instead.

Replay and clean
* `clean` replays everything as remote messages. Own events that lack witness receipts (`pending`) are put in escrow by the copy and so disappear from the log: the key state goes back, the
  identifier is still an own one, and the owner can sign and accept another event at the same place (`c175_counterexamples`). The keys in the keystore stay ahead.
* When the inception itself lacks receipts, the unverified record of `.states` is copied all the same: the node has a key state without a log (`c175_counterexamples`).
* Identifiers are replayed in the order of their names. A delegated identifier that comes before its delegator is put in escrow, and escrows of the copy are not processed before it replaces the
  database (`c174_counterexamples`, `c175_counterexamples`).
* A signature by a key beyond the last weight of a threshold, stored when it comes after acceptance, makes a replayed event unacceptable (`c174_counterexamples`, see C12).
* `clean` does not copy `lans`, `tsgs`, `scgs`, `sdts` and others that belong to the replies it copies, and drops `ends` whose location is not http, https or tcp (read, not modelled).

Typed sub-databases

- Parts of keys are not checked for the separator: `("a.b", "c")` and `("a", "b.c")` are one entry (`c176_counterexamples`). An iterator given
  as key with `topive` and no parts raises IndexError.
- `Suber.get` of an empty key hands False to the decoder, since `getVal` catches the exception of LMDB by returning False (not modelled).
- A set at `("A",)` and one at `("A", "000…0")` disturb each other (`c178_nested`, from C37).
- `IoSetSuber.getLast` starts at the key with separator `.` whatever the separator is: with another one it can find nothing
  (`c178_other_sep`).
- Branches without `topive` are by characters: `("A", "B")` has `("A", "BC")`, and trimming it removes that (`c179_no_topive`). With
  `topive`, branches of sets hold the key itself, those of single values do not (`c179_sets`).
- A tuple of no Base64 texts is read back as one empty text (`c180_b64_empty`).
- A `CatCesrSuber` that is not strict writes more primitives than it has classes and reads only the first (`c180_cesr_lost`).
- `datify` returns the dict whenever anything is raised: records in lists or optional fields, and nested records with an unknown field, come
  back as dicts without exception; an empty text where a record is annotated comes back as a record of defaults (`c180_records_inside`).

Introductions

- A URL with `>`, the separator of the tables of URLs, makes `for (url,), obr in …` raise ValueError outside of the `try`. The entry is never
  removed, so every later pass raises at it, after restarts as well, and no URL gets a result any more (`c183_stuck`, all histories). Anyone whose
  introduction is accepted, or who can send an `/oobis` exchange, can enter one.
- A URL for which no client can be made is dropped without result or cue (`c181_dropped`).
- Results are written by `put`, which does not overwrite: a URL that failed once is recorded as failed although it is resolved later
  (`c182_old`). The test for URLs that are resolved already has `and` where its comment has "or", so they are requested again (`c182_again`).
- An answer of status 200 without `Content-Type` raises KeyError after it was taken from the client, and its URL is requested for ever
  (`c183_untyped`); so is that of a multi-OOBI reply of another identifier, for which the cue has state None (`c183_foreign`). A URL of which
  the path matches no pattern waits for ever (`c183_unmatched`). A schema served as `application/json` gives no cue (`c184_silent`).
- The header `KERI-AID` of any answer chooses the contact that gets the alias and the URL (`c185_hijacked`), also for URLs introduced by peers,
  where the alias is hinted by the URL (`c185_unasked`).
- `200 >= status <= 399` accepts statuses up to 200 only (`c187_mfa_partial`, `c187_statuses`).

Contacts

- A field name with `.` gives an index key of three parts, and `for (pre, field), val in …` raises ValueError in every `list`, `find`, `findExact` and
  `values` from then on, whatever the contact (`c189_dot`). Values that are not text raise TypeError after data and signature were written
  (`c188_other`). A field `id` changes under which identifier the contact is listed (`c189_id`). Contacts without fields are not listed (`c189_empty`).
- `trim` and `remTop` are given the identifier without separator, so they also remove fields and images of identifiers that continue it
  (`c189_continued`, `c193_continued`). Identifiers of one length, as those derived from keys, do not.
- The signature covers neither identifier nor time: data of two contacts can be swapped, or an earlier one put back (`c191_swapped`). What is listed
  and searched is the index, which is not signed (`c191_unsigned`).
- Signature, data and index are written in transactions of their own, the signature first: interrupted between them, the contact raises
  ValidationError in `get`, `update`, `set` and `unset` until it is replaced or removed (`c192_torn`); interrupted in `set`, `unset` or `replace`, which
  remove it first, it is lost (`c192_lost`).
- Images of 4 GiB and more raise OverflowError after all chunks are written (`c193_large`).

Watchers

- Watchers that are ahead at different numbers of one log have different digests, which is reported as duplicity (`c196_false_alarm`: always).
- A watcher with another digest at an earlier number than the local one is reported as lagging (`c194_earlier`). No answer at all is reported as
  consistent, and watchers ahead but fewer than the threshold are not reported at all (`c195_no_answer`, `c195_silent`).

HTTP

- Nothing is escaped in the Signature header: a signer's text with quotes and semicolons puts in signatures nobody gave (`c197_injection`), a tag
  `signer` makes the signature the signer (`c197_tag_is_field`). Two signatures of one index become one (`c197_same_index`). The header of no
  signages cannot be read (`c197_empty`).
- Validation of signed requests asks for a signature of every key, not for the threshold (`c199_all_keys`). Without the header it raises
  AttributeError, and with another kind of signature, too, instead of refusing (`c199_no_header`, `c199_other_kind`).
- Posting of streams cuts binary attachments at the byte of `{` and posts a message in CBOR behind another as its attachments (`c200_binary`,
  `c200_other_kind`).
- Fields that are to be covered by the signature of a request but are not in it are left out silently (`c201_skipped`); values with line ends make
  the signed text ambiguous (`c201_line_ends`).

Notices and signals

- A crash inside of `add` leaves an identifier whose notice cannot be marked or removed (AttributeError); inside of `rem` it leaves a notice without a
  signature, and reading raises from then on (`c203_crash_add`, `c203_crash_rem`).
- A notice altered in the database is removed with True and no signal (`c204_removed_silently`).
- A range that ends before it starts gives everything from its start (`c205_backwards`).
- All notices are announced with one collapse key: of several added between two deliveries only the last is announced (`c206_notices`). A signal
  without a topic asks for `sig.id`, which does not exist; those taken before it are lost (`c206_no_topic`).
- The expiry iterates over the deque across `yield`: a push meanwhile raises RuntimeError, and nothing expires any more (`c207_killed_by_push`); a stale
  signal that is replaced meanwhile makes `remove` raise ValueError (`c207_killed_by_collapse`).

Witnesses

- `Receiptor.receipt` posts the log to witnesses that a `rot` adds, not to those that a `drt` adds (`c208_delegated`). An added witness without an HTTP
  endpoint raises MissingEntryError before anything is posted to the others, for which a missing endpoint is passed over (`c208_no_endpoint`).
- `WitnessReceiptor` takes the stored receipts, which are in the order of arrival, by the position of the witness: out of order, a witness is sent its
  own receipt and not that of another (`c209_shared_partial` is an equivalence, `c209_order`).
- `TCPMessenger.idle` does not look at messages that wait; the receiptor removes idle messengers, and their messages are not sent
  (`c210_tcp_waiting`).
- `WitnessPublisher` counts events of unknown identifiers as posted but never reports them, so it is never idle again (`c211_never_idle`).
- `SeqNoQuerier` and `AnchorQuerier` return without running their doers while the identifier is unknown, so that the query which could make it known
  is not sent (`c212_unknown`).

Endpoints and forwarding

- `fetchUrls` and `loadLocScheme` look up by the start of the key: asked for `http` they give `https` too (`c213_http`).
- `endsFor` does not look at whether a role is allowed: what was cut is sent messages still, by `Poster` and `StreamPoster` (`c214_cut`, `c218_cut`).
- `replyEndRole` asked for the witnesses of another identifier, of which the habitat is no witness, makes and signs replies that name them as
  witnesses of the habitat itself (`makeEndRole` has `cid=self.pre`; `c215_misattributed`). Asked for all roles, it tells of no witnesses, against
  its documentation (`c215_all_roles`).
- `SignifyHab.replyEndRole` replays the log of each endpoint and raises KeyError when it is not known (`c216_raises`).
- `Poster.forward` extends by the attachment, which is None when there is none: TypeError, which ends the delivering doer and all later messages
  (`c217_no_attachment`, `c218_stops`). `StreamPoster.send` raises it too (`c219_no_attachment`).
- `introduce` reads `db.vrc`, which does not exist (`vrcs` does): AttributeError for each transferable relay that is not a witness (`c220_transferable`,
  `c217_transferable`). For others it looks for receipts under the identifier of the receipter instead of that of the event, finds none, and sends the
  log each time (`c220_always`).
- `Poster.deliverDo` reports no delivery when there is nobody to send to or an endpoint has no URL; `sendEventToDelegator` then waits forever
  (`c218_nobody`, `c217_config`, `c218_waits`).
- `StreamPoster.deliver` does not end in ESSR mode when an event is larger than a chunk (`c219_oversize`); with several chunks it returns messengers
  more than once (`c219_duplicates`). Only the first role with endpoints is sent to (`c219_first_role`), though the comment says all; over TCP the
  message is not handed to the messenger (`c219_tcp`); a controller who has a mailbox too is sent the forward meant for the mailbox, and each forward is
  there twice, once without signatures (`c219_wrapped`); a mailbox here is not recognised by `send`, and the forward is stored in place of the message
  (`c219_own_mailbox`).

Annotations

- `annot` of a stream in the binary domain never ends: `pass` inside of `while ims` (`c222_hangs`, of every such stream).
- A threshold is written anew: in a longer code, or with weights that are not reduced, it comes back as another text (`c221_threshold`). In primitives
  `+` and `/` come back as `-` and `_` (`c221_alphabet`).
- The count of the counter in front is not compared with what follows, nor is its code looked at (`c223_count`).

Registries of own identifiers

- The record of a name is put and not replaced: a second registry of the same name works until a restart and is not found after it (`c224_name_taken`,
  `c224_second_lost`). The record is written before the event is processed, and stays when that raises.
- `loadRegistries` reads `hby.habs[pre]`, which raises KeyError where None is expected: one record of an identifier that is gone keeps the Regery from
  being set up (`c224_identifier_gone`).
- Loaded registries are not local: after a restart the own rotations and backed issuances need signatures of backers that they did not need before, and
  are not looked at again (`c226_backers_after_restart`); a rotation is made with a number already used (`c226_number_again`, after C59).
- `SignifyRegistry.rotate` compares the number as text in hex with an integer and raises ValueError for every rotation (`c227_rotate_fails`).
  `SignifyRegistry.revoke` reads the issuance as an ACDC and raises for every credential (`c227_revoke_fails`); after a restart the registry is of the
  other class and does not (`c227_restarted`).

Notices of transaction state

- The source of a registry's notice is checked against the controller and backers that the notice itself names, so that any source that names itself is
  taken (`c228_own_backer`, `c228_not_controller`). Of a credential's it is checked against the registry that the notice names, which is not compared with
  the registry of the credential (`c228_own_registry`, `c228_not_issuer`). The event named must be in the own log in either case.
- Notices are saved under the digest of the event, and the notice before is looked for under it among replies, where it is never found: dates are not
  compared. `sn < sserder.sn` compares the number with that of the event found at that number. An older notice that a credential is issued replaces that
  it is revoked (`c229_last_saved`, `c229_goes_back`).
- The limit of an hour counts from the date in the notice and not from when it came (`c230_given_up`). What an entry had stored stays when it is dropped.
- When the controller of a credential's registry is not known, the key state of the source is asked for (`c231_asks_source`).

Queries for transaction logs and state

- A query for the state of a registry and a credential calls `tever.vcState(vcpre=…)`, whose parameter is named `vci`: every such query raises TypeError
  after the reply with the registry's state is cued (`c233_credential_never`).
- What is replayed is what is stored, not what was checked: a source seal that was wrong and stored first is sent on, and no receiver accepts the event
  (`c232_wrong_seal_sent`, after C60). The controller of a registry with backers accepts its own events without signatures and replays them without
  (`c232_unbacked_sent`).
- A query names one registry. If a credential was revoked in another one (C57), the receiver is left with the issuance
  (`c232_foreign_revocation_lost`).

The database in browsers

- Values put, changed or removed while `flush` awaits `sync` are lost: the store is marked as clean after the wait though what was written is from before it,
  and later flushes pass it over (`c235_lost`). The next change of the store mends this.
- `close(clear=True)` empties the stores, marks them and then drops them from the database: a flush after it has nothing to write, and what was kept is there
  when the database is opened again (`c235_not_cleared`).
- Empty keys raise KeyError in browsers and are answered on disk; numbered values of an empty key are stored in browsers and refused on disk
  (`c234_empty_key`). An empty numbered value is an item in browsers and none on disk (`c234_empty_value`). Appending on disk raises if the entry after the
  key has no number, in browsers it does not (`c234_append_neighbour`).
- Sets in browsers are written by assignment. If a key that is another one followed by the separator and `0` hides values of that one (C37), the next value
  takes the place of a hidden one, which is lost; on disk it is refused (`c236_nested_keys`).
- The last value of a set is found with every separator in browsers and only with `.` on disk (`c236_last_separator`).
- `appendOnIoSetVals` and `remOnAllIoSet` of `WebDBer` never mark the store as dirty: what was appended to a store that had been flushed is lost and what was
  removed comes back when it is opened again, however often it is flushed, unless another call marks it (`c239_append_lost`, `c239_rem_lost`,
  `c239_mended`).
- An append that raises because one of its keys is taken leaves the values before that in browsers; on disk the transaction is aborted (`c239_half_append`).
- Sets under a key that is another one followed by the separator and a number stop the removal of that one's sets: those with greater numbers stay, and the
  answer is True (`c240_nested_keys`, on disk and in browsers).
- Iterating such a key's sets backwards in browsers passes over the others, forward it stops at them, as counting does (`c241_nested_keys`). For a key that is
  not there it yields nothing in browsers, where it raises ValueError on disk (`c241_missing`, after C41).
- The iteration of last values on disk makes the key it starts from without the separator it was given (dbing.py 2019-2020): with a separator below `.` it yields
  nothing (`c242_separator`).
- So does the iteration of last values of all sets from a key on (dbing.py 1457): the set of that key is left out (`c243_separator`). Sets divided by a nested
  key are yielded once for each part (`c243_nested_keys`).
- In browsers a version that is set once the database is closed is read back but stored nowhere (webdbing.py 345, 369-370; `c244_closed`). One that is set while a
  flush is under way is not kept (`c244_lost`). If the store `__meta__` is emptied through its handle the version read stays the old one until the database is
  opened again (`c244_stale`).

Configuration files

- `Configer.put` cuts the file before it looks at the extension and before it serializes: if either fails the configuration before is lost, and `get`
  gives an empty dict without raising (`c237_failed_put`). The same if the process ends between cutting and writing (`c237_interrupted`).
- What is put with `human` is Hjson, which those who get it without `human` cannot read (`c237_human_not_read`).

Schemas

- The setter of `Schemer.kind` unpacks what `_exhale` returns in another order: content and kind are exchanged. The identifier it sets is made of the first
  bytes of the serialization, as if those were a digest (`c238_kind_set`, scheming.py 425-429).
- The identifier binds the dict and not the bytes: other serializations of the same dict are accepted and kept as they came (`c238_other_bytes`).
