{"id": "C01", "title": "Base64 integer encoding round trips", "statement": "For every natural number n and minimum width l, b64ToInt(intToB64(n, l)) = n whenever the text is nonempty; the text uses only the URL-safe Base64 alphabet, has at least l characters and is the shortest such text. Conversely intToB64(b64ToInt(s), len(s)) = s for every nonempty Base64 text s.", "quantifier": "all natural numbers n, all widths l, all Base64 texts s", "why_tests_cant": "The input space is infinite; a test fixes finitely many inputs and says nothing about the others.", "anchors": ["src/keri/help/helping.py:intToB64", "src/keri/help/helping.py:b64ToInt"]}
{"id": "C02", "title": "Code conversion between text and binary domain is lossless", "statement": "For every Base64 text s, codeB2ToB64(codeB64ToB2(s), len(s)) = s, the binary form has ceil(3*len/4) bytes, and trailing bytes after the code never change the answer. nabSextets(b, l) returns exactly the first l sextets of b with the rest zeroed.", "quantifier": "all Base64 texts s, all byte strings b, all lengths l", "why_tests_cant": "The input space is infinite; a test fixes finitely many inputs and says nothing about the others.", "anchors": ["src/keri/help/helping.py:codeB64ToB2", "src/keri/help/helping.py:codeB2ToB64", "src/keri/help/helping.py:nabSextets"]}
{"id": "C03", "title": "Primitive text form round trips", "statement": "For every primitive code and every (raw, soft) that Matter accepts, parsing the .qb64 text of the primitive yields the same code, soft and raw.", "quantifier": "all codes of the table, all raw byte strings and soft values of the right size", "why_tests_cant": "The input space is infinite; a test fixes finitely many inputs and says nothing about the others.", "anchors": ["src/keri/core/coring.py:Matter._infil", "src/keri/core/coring.py:Matter._exfil"]}
{"id": "C04", "title": "Primitive binary form round trips", "statement": "For every primitive code and every (raw, soft) that Matter accepts, parsing the .qb2 bytes of the primitive yields the same code, soft and raw.", "quantifier": "all codes of the table, all raw byte strings and soft values of the right size", "why_tests_cant": "The input space is infinite; a test fixes finitely many inputs and says nothing about the others.", "anchors": ["src/keri/core/coring.py:Matter._binfil", "src/keri/core/coring.py:Matter._bexfil"]}
{"id": "C05", "title": "Text and binary domains are aligned and composable", "statement": "The .qb2 form of a primitive is the Base64 decoding of its .qb64 form, both are a whole number of 24-bit groups, and converting a concatenation of primitives between domains is the concatenation of the converted primitives.", "quantifier": "all primitives and all finite sequences of primitives", "why_tests_cant": "The input space is infinite; a test fixes finitely many inputs and says nothing about the others.", "anchors": ["src/keri/core/coring.py:Matter._infil", "src/keri/core/coring.py:Matter._binfil"]}
{"id": "C06", "title": "Primitives are self-framing in a stream", "statement": "Parsing a primitive at the front of a stream consumes exactly the characters (or bytes) of that primitive: whatever follows it does not change the parsed primitive nor its size, so a concatenation of primitives parses back to the same sequence.", "quantifier": "all primitives, all trailing stream contents, all sequences of primitives", "why_tests_cant": "The input space is infinite; a test fixes finitely many inputs and says nothing about the others.", "anchors": ["src/keri/core/coring.py:Matter._exfil", "src/keri/core/coring.py:Matter._bexfil", "src/keri/core/coring.py:Matter.fullSize"]}
{"id": "C07", "title": "Truncated primitives are never misread", "statement": "Every proper prefix of a valid primitive is answered with an error asking for more material; it never parses as some other primitive.", "quantifier": "all primitives, all cut points, text and binary domain", "why_tests_cant": "The input space is infinite; a test fixes finitely many inputs and says nothing about the others.", "anchors": ["src/keri/core/coring.py:Matter._exfil", "src/keri/core/coring.py:Matter._bexfil"]}
{"id": "C08", "title": "Primitive text is canonical", "statement": "Two texts that parse to the same primitive are the same text: no primitive has two accepted spellings (no malleability of keys, digests, signatures).", "quantifier": "all texts accepted by the parser", "why_tests_cant": "The input space is infinite; a test fixes finitely many inputs and says nothing about the others.", "anchors": ["src/keri/core/coring.py:Matter._exfil"]}
{"id": "C09", "title": "Variable-size primitives pick the right size code", "statement": "For every raw byte string the variable-size code chosen has the right lead size (so that the whole is 24-bit aligned) and the right soft size, and raws beyond the large limit are refused rather than mis-sized.", "quantifier": "all raw lengths", "why_tests_cant": "The input space is infinite; a test fixes finitely many inputs and says nothing about the others.", "anchors": ["src/keri/core/coring.py:Matter.__init__"]}
{"id": "C10", "title": "Numeric signing threshold", "statement": "A numeric threshold M is satisfied by a set of signer positions exactly when M is positive and the set has at least M members; the zero threshold is satisfied by nothing.", "quantifier": "all M, N and all sets of positions", "why_tests_cant": "The input space is infinite; a test fixes finitely many inputs and says nothing about the others.", "anchors": ["src/keri/core/coring.py:Tholder._satisfy_numeric", "src/keri/core/coring.py:Tholder.satisfy"]}
{"id": "C11", "title": "Weighted signing threshold", "statement": "A weighted threshold (a list of clauses of fractional weights, possibly nested) is satisfied by a set of signer positions exactly when in every clause the weights of the signed positions (nested groups counting when their own weights reach one) add up to at least one.", "quantifier": "all well-formed weighted thresholds, all sets of positions", "why_tests_cant": "The input space is infinite; a test fixes finitely many inputs and says nothing about the others.", "anchors": ["src/keri/core/coring.py:Tholder._satisfy_weighted", "src/keri/core/coring.py:Tholder._processWeighted"]}
{"id": "C12", "title": "Threshold satisfaction is monotone", "statement": "Adding further signatures never turns a satisfied threshold into an unsatisfied one.", "quantifier": "all thresholds, all lists of positions, all extensions", "why_tests_cant": "The input space is infinite; a test fixes finitely many inputs and says nothing about the others.", "anchors": ["src/keri/core/coring.py:Tholder.satisfy"]}
{"id": "C13", "title": "One key counts once", "statement": "Repeating signatures of the same key position never helps to satisfy a threshold: satisfaction depends only on the set of distinct positions.", "quantifier": "all thresholds, all lists of positions with repetitions", "why_tests_cant": "The input space is infinite; a test fixes finitely many inputs and says nothing about the others.", "anchors": ["src/keri/core/coring.py:Tholder._satisfy_numeric", "src/keri/core/coring.py:Tholder._satisfy_weighted", "src/keri/core/eventing.py:verifySigs"]}
{"id": "C14", "title": "Weighted threshold text form round trips", "statement": "Serialising a weighted threshold (.limen / .sith) and reading it back yields a threshold with the same clauses and hence the same satisfying sets.", "quantifier": "all well-formed weighted thresholds", "why_tests_cant": "The input space is infinite; a test fixes finitely many inputs and says nothing about the others.", "anchors": ["src/keri/core/coring.py:Tholder.limen", "src/keri/core/coring.py:Tholder.sith", "src/keri/core/coring.py:Tholder._processWeighted"]}
{"id": "C15", "title": "Ample witness threshold is immune", "statement": "For every number n of witnesses the default threshold m = ample(n) satisfies m <= n, and for every fault bound f with n >= 3f+1 any two witness agreements of size m share an honest witness (2m > n + f) while n - f honest witnesses suffice to reach m.", "quantifier": "all witness pool sizes n and all fault bounds f", "why_tests_cant": "The input space is infinite; a test fixes finitely many inputs and says nothing about the others.", "anchors": ["src/keri/core/eventing.py:ample"]}
{"id": "C16", "title": "Accepted key event log is a digest-linked chain", "statement": "After any history of messages the current log of an identifier is a chain: events at sequence numbers 0..n, the first an inception, each later one naming the digest of the event before it.", "quantifier": "all histories of processed events (valid, invalid, duplicated, out of order, recovery)", "why_tests_cant": "It is an invariant of every history of messages, of any length and in any order; tests replay a handful of histories.", "anchors": ["src/keri/core/eventing.py:Kever.update", "src/keri/core/eventing.py:Kever.rotate", "src/keri/core/eventing.py:Kevery.processEvent", "src/keri/core/eventing.py:Kever.logEvent"]}
{"id": "C17", "title": "First-seen log is append-only and gapless", "statement": "Processing a message never changes or removes an entry of the first-seen log; it appends at most one entry, at the next ordinal; ordinals are 0,1,2,... without gaps.", "quantifier": "all histories", "why_tests_cant": "It is an invariant of every history of messages, of any length and in any order; tests replay a handful of histories.", "anchors": ["src/keri/core/eventing.py:Kever.logEvent", "src/keri/db/basing.py:Baser.fels"]}
{"id": "C18", "title": "No event is first-seen twice", "statement": "In any history without delegation no event digest appears twice in the first-seen log of an identifier.", "quantifier": "all histories, including replays and recoveries", "why_tests_cant": "It is an invariant of every history of messages, of any length and in any order; tests replay a handful of histories.", "anchors": ["src/keri/core/eventing.py:Kevery.processEvent", "src/keri/core/eventing.py:Kever.rotate"]}
{"id": "C19", "title": "No acceptance without the signing threshold", "statement": "Every event that enters the log carries signatures that verify under the keys authoritative for it and whose positions satisfy the signing threshold authoritative for it.", "quantifier": "all histories, all attached signature lists", "why_tests_cant": "It is an invariant of every history of messages, of any length and in any order; tests replay a handful of histories.", "anchors": ["src/keri/core/eventing.py:Kever.valSigsWigsDel", "src/keri/core/eventing.py:verifySigs"]}
{"id": "C20", "title": "Pre-rotation commitment is enforced", "statement": "A rotation enters the log only if keys whose digests were committed by the preceding establishment event signed it and their committed positions satisfy the committed next threshold.", "quantifier": "all histories", "why_tests_cant": "It is an invariant of every history of messages, of any length and in any order; tests replay a handful of histories.", "anchors": ["src/keri/core/eventing.py:Kever.exposeds", "src/keri/core/eventing.py:Kever.valSigsWigsDel"]}
{"id": "C21", "title": "No acceptance without the witness threshold", "statement": "An event that is not local, of an identifier that is neither own nor witnessed by the host, enters the log only with verified receipts of at least the witness threshold, from distinct witnesses of the witness list in force.", "quantifier": "all histories", "why_tests_cant": "It is an invariant of every history of messages, of any length and in any order; tests replay a handful of histories.", "anchors": ["src/keri/core/eventing.py:Kever.valSigsWigsDel", "src/keri/core/eventing.py:Kever.deriveBacks"]}
{"id": "C22", "title": "Witness list algebra", "statement": "The witness list of an identifier has no duplicates at any time, and after an accepted rotation it equals (old minus cuts) followed by adds; inconsistent cuts or adds are refused.", "quantifier": "all histories, all cut and add lists", "why_tests_cant": "It is an invariant of every history of messages, of any length and in any order; tests replay a handful of histories.", "anchors": ["src/keri/core/eventing.py:Kever.deriveBacks"]}
{"id": "C23", "title": "Refused events change nothing in key state", "statement": "If processing an event ends in an error then key state, key event log and first-seen log of every identifier are exactly what they were before.", "quantifier": "all states, all events", "why_tests_cant": "It is an invariant of every history of messages, of any length and in any order; tests replay a handful of histories.", "anchors": ["src/keri/core/eventing.py:Kever.update", "src/keri/core/eventing.py:Kevery.processEvent"]}
{"id": "C24", "title": "Recovery supersedes only interaction events", "statement": "A rotation that re-uses an already taken sequence number replaces only interaction events after the last establishment event; no establishment event of a non-delegated identifier is ever superseded.", "quantifier": "all histories", "why_tests_cant": "It is an invariant of every history of messages, of any length and in any order; tests replay a handful of histories.", "anchors": ["src/keri/core/eventing.py:Kever.rotate", "src/keri/core/eventing.py:Kevery.processEvent"]}
{"id": "C25", "title": "Non-transferable and abandoned identifiers are frozen", "statement": "Once an identifier is non-transferable, or its last establishment event committed to no next keys, no further event ever enters its log.", "quantifier": "all continuations of the history", "why_tests_cant": "It is an invariant of every history of messages, of any length and in any order; tests replay a handful of histories.", "anchors": ["src/keri/core/eventing.py:Kever.update", "src/keri/core/eventing.py:Kever.transferable"]}
{"id": "C26", "title": "Establishment-only configuration is honoured", "statement": "If the inception of an identifier sets the establishment-only trait then no interaction event ever enters its log.", "quantifier": "all histories", "why_tests_cant": "It is an invariant of every history of messages, of any length and in any order; tests replay a handful of histories.", "anchors": ["src/keri/core/eventing.py:Kever.update", "src/keri/core/eventing.py:Kever.config"]}
{"id": "C27", "title": "Replays are idempotent", "statement": "Delivering an already accepted event again, with any signatures, leaves key state, key event log and first-seen log unchanged.", "quantifier": "all reachable states, all already accepted events", "why_tests_cant": "It is an invariant of every history of messages, of any length and in any order; tests replay a handful of histories.", "anchors": ["src/keri/core/eventing.py:Kevery.processEvent"]}
{"id": "C28", "title": "First seen wins and duplicity is recorded", "statement": "A different event at an already occupied sequence number that is not a valid recovery never displaces the accepted event; it is answered with a likely-duplicitous error and kept as evidence in the likely-duplicitous escrow.", "quantifier": "all histories", "why_tests_cant": "It is an invariant of every history of messages, of any length and in any order; tests replay a handful of histories.", "anchors": ["src/keri/core/eventing.py:Kevery.processEvent", "src/keri/core/eventing.py:Kevery.escrowLDEvent"]}
{"id": "C29", "title": "Delegated events need the delegator's anchor", "statement": "A delegated establishment event (not local, not own, not witnessed by the host) enters the log only if an event first-seen in the delegator's log contains a seal with its identifier, sequence number and digest.", "quantifier": "all histories", "why_tests_cant": "It is an invariant of every history of messages, of any length and in any order; tests replay a handful of histories.", "anchors": ["src/keri/core/eventing.py:Kever.validateDelegation"]}
{"id": "C30", "title": "Remote messages cannot drive own identifiers", "statement": "An event for an identifier controlled, witnessed or delegated by the host enters the log only when it comes from a local (protected) source.", "quantifier": "all histories, all remote sources", "why_tests_cant": "It is an invariant of every history of messages, of any length and in any order; tests replay a handful of histories.", "anchors": ["src/keri/core/eventing.py:Kever.valSigsWigsDel"]}
{"id": "C31", "title": "Delivery order does not matter", "statement": "Delivering the events of a valid log in any order, followed by enough escrow passes, ends in the same key state and log as delivering them in sequence order.", "quantifier": "all permutations of every finite valid log", "why_tests_cant": "There are factorially many delivery orders of logs of unbounded length.", "anchors": ["src/keri/core/eventing.py:Kevery.processEscrowOutOfOrders", "src/keri/core/eventing.py:Kevery.escrowOOEvent"]}
{"id": "C32", "title": "Crash between writes leaves a recoverable log", "statement": "After a crash between any two database writes performed while accepting an event, every event listed in the key event log has its body and signatures stored, and reprocessing the same event afterwards ends in the same log as without the crash.", "quantifier": "all crash points", "why_tests_cant": "A crash can hit between any two of the separate database transactions.", "anchors": ["src/keri/core/eventing.py:Kever.logEvent", "src/keri/core/eventing.py:Kever.update"]}
{"id": "C33", "title": "Stored signatures of accepted events verify", "statement": "Every signature stored for an accepted event verifies under the key at its position.", "quantifier": "all histories", "why_tests_cant": "It is an invariant of every history of messages, of any length and in any order; tests replay a handful of histories.", "anchors": ["src/keri/core/eventing.py:Kever.logEvent", "src/keri/core/eventing.py:Kevery.escrowOOEvent"]}
{"id": "C34", "title": "Receipts are stored only against the event they sign", "statement": "Every receipt signature stored for an event verifies over exactly that event, and receipts are accepted only for the last seen event at a sequence number.", "quantifier": "all receipts, all histories", "why_tests_cant": "It is an invariant of every history of messages, of any length and in any order; tests replay a handful of histories.", "anchors": ["src/keri/core/eventing.py:Kevery.processReceipt"]}
{"id": "C35", "title": "Establishment lookup returns the authority", "statement": "fetchEstEvent(pre, sn) returns the latest establishment event at or before sn in the log, for every sn in the log.", "quantifier": "all logs, all sequence numbers", "why_tests_cant": "It is an invariant of every history of messages, of any length and in any order; tests replay a handful of histories.", "anchors": ["src/keri/core/eventing.py:Kevery.fetchEstEvent"]}
{"id": "C36", "title": "Ordinal keys sort numerically and split uniquely", "statement": "For ordinals below 16^32 byte order of onKey(top, n) agrees with numeric order of n, and splitting the key gives back top and n; the same for insertion-order suffixes.", "quantifier": "all top keys, all ordinals", "why_tests_cant": "The input space is infinite; a test fixes finitely many inputs and says nothing about the others.", "anchors": ["src/keri/db/dbing.py:onKey", "src/keri/db/dbing.py:splitOnKey", "src/keri/db/dbing.py:suffix", "src/keri/db/dbing.py:unsuffix"]}
{"id": "C37", "title": "Insertion-ordered sets behave as ordered sets", "statement": "Under any sequence of put, add, pin, rem and get operations on any keys, the values read at a key are exactly those of an abstract insertion-ordered set without duplicates, and operations on one key never affect another key.", "quantifier": "all operation sequences on all keys", "why_tests_cant": "Interference between keys in the shared sorted key space depends on all other keys present.", "anchors": ["src/keri/db/dbing.py:LMDBer.putIoSetVals", "src/keri/db/dbing.py:LMDBer.addIoSetVal", "src/keri/db/dbing.py:LMDBer.remIoSetVal", "src/keri/db/dbing.py:LMDBer.getIoSetItemIter", "src/keri/db/dbing.py:LMDBer.pinIoSetVals"]}
{"id": "C38", "title": "Ordinal append is gapless and order preserving", "statement": "appendOnVal stores the value one past the last ordinal used under the key (0 if none) and changes nothing else, so reading all entries of a key returns the values in append order.", "quantifier": "all database contents, all keys", "why_tests_cant": "Correctness depends on neighbouring keys in the sorted key space.", "anchors": ["src/keri/db/dbing.py:LMDBer.appendOnVal", "src/keri/db/dbing.py:LMDBer.getOnAllItemIter"]}
{"id": "C39", "title": "Insertion-ordered duplicates behave as ordered sets", "statement": "Under any sequence of put, add, delete and read operations the duplicates at a key are those of an insertion-ordered set without repetitions.", "quantifier": "all operation sequences", "why_tests_cant": "The input space is infinite; a test fixes finitely many inputs and says nothing about the others.", "anchors": ["src/keri/db/dbing.py:LMDBer.putIoDupVals", "src/keri/db/dbing.py:LMDBer.addIoDupVal", "src/keri/db/dbing.py:LMDBer.delIoDupVal"]}
{"id": "C40", "title": "Branch iteration returns exactly the branch", "statement": "Iterating over a top key returns, in key order, exactly the entries whose key starts with the top key, and removing a branch removes exactly those.", "quantifier": "all database contents and top keys", "why_tests_cant": "The input space is infinite; a test fixes finitely many inputs and says nothing about the others.", "anchors": ["src/keri/db/dbing.py:LMDBer.getTopItemIter", "src/keri/db/dbing.py:LMDBer.remTop", "src/keri/db/dbing.py:LMDBer.cntTop"]}
{"id": "C41", "title": "Backward iteration mirrors forward iteration", "statement": "Iterating a key backwards from an ordinal yields exactly the entries with ordinal at most that one, in reverse order, for every database content including empty ones and missing keys.", "quantifier": "all database contents, keys, ordinals", "why_tests_cant": "The input space is infinite; a test fixes finitely many inputs and says nothing about the others.", "anchors": ["src/keri/db/dbing.py:LMDBer.getOnAllIoSetItemBackIter", "src/keri/db/dbing.py:LMDBer.getOnAllIoSetLastItemBackIter"]}
{"id": "C42", "title": "Replies are accepted only from their authority", "statement": "A reply (endpoint role, location, key state notice) is accepted only with a verifying signature of the identifier that authorises it, under keys of an accepted establishment event meeting its threshold.", "quantifier": "all replies, all attachments, all database states", "why_tests_cant": "It is an invariant of every history of messages, of any length and in any order; tests replay a handful of histories.", "anchors": ["src/keri/core/routing.py:Revery.acceptReply"]}
{"id": "C43", "title": "Best-available-data: accepted replies only move forward", "statement": "For one source and one piece of data the sequence of accepted replies is strictly increasing in (sequence number of signing establishment event, date-time) for transferable sources and in date-time for non-transferable ones; an older reply never replaces a newer one.", "quantifier": "all sequences of replies, including replays", "why_tests_cant": "It is an invariant of every history of messages, of any length and in any order; tests replay a handful of histories.", "anchors": ["src/keri/core/routing.py:Revery.acceptReply", "src/keri/core/routing.py:Revery.updateReply", "src/keri/core/routing.py:Revery.removeReply"]}
{"id": "C44", "title": "Base64 text primitive round trips", "statement": "Every Base64 text that fits can be carried by a Bexter and is read back unchanged from the object, its .qb64 and its .qb2 form, including texts starting with the pad character 'A' or the escape character '-'; other text is refused.", "quantifier": "all Base64 texts up to the size limit", "why_tests_cant": "The input space is infinite; a test fixes finitely many inputs and says nothing about the others.", "anchors": ["src/keri/core/coring.py:Bexter._rawify", "src/keri/core/coring.py:Bexter._derawify", "src/keri/core/coring.py:Bexter.bext"]}
{"id": "C45", "title": "Number primitive round trips and is sized minimally", "statement": "Number(num=n) reads back as n from text and binary form; with an explicit code it is accepted exactly when n fits in the code, without one the smallest code of the automatic family is chosen, and numbers of 17 bytes or more are refused.", "quantifier": "all natural numbers, all number codes", "why_tests_cant": "The input space is infinite; a test fixes finitely many inputs and says nothing about the others.", "anchors": ["src/keri/core/coring.py:Number.__init__", "src/keri/core/coring.py:Number.num"]}
{"id": "C46", "title": "Decimal text primitive round trips", "statement": "A decimal number given to Decimer reads back as the same decimal number text.", "quantifier": "all decimal number texts Python prints for int and float", "why_tests_cant": "The input space is infinite; a test fixes finitely many inputs and says nothing about the others.", "anchors": ["src/keri/core/coring.py:Decimer._rawify", "src/keri/core/coring.py:Decimer.dns"]}
{"id": "C47", "title": "Date-time primitive round trips", "statement": "A date-time of the 32 character RFC-3339 profile given to Dater reads back as the same text, also after passing through its .qb64 form.", "quantifier": "all date-times of the profile", "why_tests_cant": "The input space is infinite; a test fixes finitely many inputs and says nothing about the others.", "anchors": ["src/keri/core/coring.py:Dater.__init__", "src/keri/core/coring.py:Dater.dts"]}
{"id": "C48", "title": "Key state is that of the log", "statement": "The key state kept for an identifier is that of its last first-seen event and of the establishment event authoritative for it: sequence number, event type, keys, signing threshold, next-key commitments, next threshold and witness threshold are exactly the ones these two events state.", "quantifier": "all histories of deliveries, receipts and escrow passes", "why_tests_cant": "It is an invariant of every history of messages, of any length and in any order; tests replay a handful of histories.", "anchors": ["src/keri/core/eventing.py:Kever", "src/keri/core/eventing.py:Kevery.processEvent"]}
{"id": "C49", "title": "A numeric threshold needs that many keys", "statement": "When the authoritative establishment event has numeric signing threshold m, an accepted event was signed by at least m different positions of its key list.", "quantifier": "all histories and all signature attachments", "why_tests_cant": "The input space is infinite; a test fixes finitely many inputs and says nothing about the others.", "anchors": ["src/keri/core/eventing.py:verifySigs", "src/keri/core/eventing.py:Kever.valSigsWigsDel", "src/keri/core/coring.py:Tholder._satisfy_numeric"]}
{"id": "C50", "title": "Codes carry material of the documented size", "statement": "For every fixed size code of the code table, a primitive made with it carries exactly the number of bytes of material (and the characters of special value) documented for the code, and every fixed size code is documented.", "quantifier": "all codes of the table, all materials", "why_tests_cant": "The input space is infinite; a test fixes finitely many inputs and says nothing about the others.", "anchors": ["src/keri/core/coring.py:MatterCodex", "src/keri/core/coring.py:Matter.Sizes", "src/keri/core/coring.py:Matter.__init__"]}
{"id": "C51", "title": "Properly signed events that continue the log are accepted", "statement": "An inception of a new identifier, an interaction on top of the log, or a rotation on top of the log or recovering from interactions is logged and becomes the tip of the key state whenever its fields are consistent, its verifying signatures meet the thresholds (whatever else is attached), its witness threshold is met or the host has a part in the identifier, and it comes from a local source or concerns an identifier in which the host has no part.", "quantifier": "all reachable nodes, all events of these kinds, all attachments", "why_tests_cant": "It is an invariant of every history of messages, of any length and in any order; tests replay a handful of histories.", "anchors": ["src/keri/core/eventing.py:Kevery.processEvent", "src/keri/core/eventing.py:Kever.update", "src/keri/core/eventing.py:Kever.valSigsWigsDel"]}
{"id": "C52", "title": "Single values behave as a map", "statement": "Under any sequence of put, set, get and remove operations on any non-empty keys every answer is the one of a partial map: put adds and never replaces, set replaces, remove removes, other keys are unaffected.", "quantifier": "all operation sequences", "why_tests_cant": "The input space is infinite; a test fixes finitely many inputs and says nothing about the others.", "anchors": ["src/keri/db/dbing.py:LMDBer.putVal", "src/keri/db/dbing.py:LMDBer.setVal", "src/keri/db/dbing.py:LMDBer.getVal", "src/keri/db/dbing.py:LMDBer.remVal"]}
{"id": "C53", "title": "Receipts in an own name come from here", "statement": "A receipt in the name of an own identifier is stored only when it comes from a local source and receipts somebody else's event.", "quantifier": "all receipts and attachments, all histories", "why_tests_cant": "It is an invariant of every history of messages, of any length and in any order; tests replay a handful of histories.", "anchors": ["src/keri/core/eventing.py:Kevery.processReceipt", "src/keri/core/eventing.py:Kevery.processAttachedReceiptCouples", "src/keri/core/eventing.py:Kevery.processAttachedReceiptSigGroups", "src/keri/core/eventing.py:Kevery.processEscrowUnverNonTrans"]}
{"id": "C54", "title": "Early receipts are kept and stored once the event is there", "statement": "A receipt that arrives before the event it receipts waits in escrow, is left there as long as neither the event nor its time-out has come, and is stored by the next escrow pass after the event has been accepted.", "quantifier": "all receipts, all orders of arrival", "why_tests_cant": "It is an invariant of every history of messages, of any length and in any order; tests replay a handful of histories.", "anchors": ["src/keri/core/eventing.py:Kevery.processEscrowUnverNonTrans", "src/keri/core/eventing.py:Kevery.processEscrowUnverTrans", "src/keri/core/eventing.py:Kevery.processEscrowUnverWitness", "src/keri/core/eventing.py:Kevery._processEscrowFindUnver"]}
{"id": "C55", "title": "Registry and credential events are sealed by the registry's issuer", "statement": "Every event in a transaction event log names a registry whose inception event was sealed, in its accepted key event log, by the identifier that event names as issuer; and that identifier sealed the event itself in its accepted key event log. A registry has one issuer.", "quantifier": "all histories of key events, transaction events, escrow passes and restarts", "why_tests_cant": "It is an invariant of every history of messages, of any length and in any order; tests replay a handful of histories.", "anchors": ["src/keri/vdr/eventing.py:Tevery.processEvent", "src/keri/vdr/eventing.py:Tever.verifyAnchor", "src/keri/vdr/eventing.py:Tever.valAnchorBigs", "src/keri/vdr/eventing.py:Tever.logEvent"]}
{"id": "C56", "title": "Revocation is permanent", "statement": "Transaction event logs are only extended at their end. Once a revocation is in the log of a credential, the credential is never again reported as issued or unknown, and reports state number, digest, source seal and kind of the last logged event.", "quantifier": "all histories, continued in all ways", "why_tests_cant": "It is an invariant of every history of messages, of any length and in any order; tests replay a handful of histories.", "anchors": ["src/keri/vdr/eventing.py:Tever.vcState", "src/keri/vdr/eventing.py:Tever.logEvent", "src/keri/vdr/eventing.py:Tevery.processEvent"]}
{"id": "C57", "title": "Only the issuer of its registry issues and revokes a credential", "statement": "All entries of the log of a credential are sealed by the identifier that controls the registry the credential was issued in.", "quantifier": "all histories, including events of other registries for the same credential", "why_tests_cant": "It is an invariant of every history of messages, of any length and in any order; tests replay a handful of histories.", "anchors": ["src/keri/vdr/eventing.py:Tever.issue", "src/keri/vdr/eventing.py:Tever.revoke", "src/keri/vdr/eventing.py:Tevery.registryKey"]}
{"id": "C58", "title": "Transaction event logs are gapless and linked", "statement": "Entry i of a log is an event with number i; exactly entry 0 is an inception or issuance; every later entry names the digest of the entry before it as its prior event; simple events are in logs of registries without backers only, the others in logs of registries with backers only.", "quantifier": "all histories", "why_tests_cant": "It is an invariant of every history of messages, of any length and in any order; tests replay a handful of histories.", "anchors": ["src/keri/vdr/eventing.py:Tevery.processEvent", "src/keri/vdr/eventing.py:Tever.rotate", "src/keri/vdr/eventing.py:Tever.revoke", "src/keri/vdr/eventing.py:Tever.issue"]}
{"id": "C59", "title": "Registry state survives a restart", "statement": "A registry known before a restart is known after it with the same issuer, number, last event, threshold and backers.", "quantifier": "all histories with restarts anywhere", "why_tests_cant": "It is an invariant of every history of messages, of any length and in any order; tests replay a handful of histories.", "anchors": ["src/keri/vdr/eventing.py:rbdict", "src/keri/vdr/eventing.py:Tever.reload", "src/keri/vdr/eventing.py:Tever.state", "src/keri/vdr/eventing.py:Tever.update"]}
{"id": "C60", "title": "Events that wait for their seal are accepted when it comes", "statement": "An event delivered before its issuer's seal waits, and is entered in its log by the next escrow pass after the seal is in the issuer's accepted key event log.", "quantifier": "all orders of arrival, whatever else waits", "why_tests_cant": "It is an invariant of every history of messages, of any length and in any order; tests replay a handful of histories.", "anchors": ["src/keri/vdr/eventing.py:Tever.escrowALEvent", "src/keri/vdr/eventing.py:Tevery.processEscrowAnchorless", "src/keri/vdr/eventing.py:Tevery.processEscrowOutOfOrders"]}
{"id": "C61", "title": "Backer thresholds are met", "statement": "An accepted event of a registry with backers, not the node's own, carries valid signatures of at least as many different backers as the threshold says that is in force in the registry.", "quantifier": "all events, attachments and registry states", "why_tests_cant": "It is an invariant of every history of messages, of any length and in any order; tests replay a handful of histories.", "anchors": ["src/keri/vdr/eventing.py:Tever.valAnchorBigs", "src/keri/vdr/eventing.py:Tever.getBackerState", "src/keri/vdr/eventing.py:Tever.rotate"]}
{"id": "C62", "title": "Own registries are written locally", "statement": "Outside lax mode no event from elsewhere is entered in the log of one of the node's own registries or of a credential issued in one, or changes the state of one.", "quantifier": "all histories of events from elsewhere", "why_tests_cant": "It is an invariant of every history of messages, of any length and in any order; tests replay a handful of histories.", "anchors": ["src/keri/vdr/eventing.py:Tevery.processEvent"]}
{"id": "C63", "title": "Credentials are accepted exactly when everything checks out", "statement": "A credential is accepted if and only if its registry is known, a transaction event log exists for it and is not too old, its schema is known and fits it, and every edge leads to an accepted credential with a current, unrevoked status, with the operators and the schema of the edge respected. What is accepted stays accepted; what is refused is not listed.", "quantifier": "all histories of key events, transaction events, schemas, credentials and escrow passes in any order", "why_tests_cant": "It is an invariant of every history of messages, of any length and in any order; tests replay a handful of histories.", "anchors": ["src/keri/vdr/verifying.py:Verifier.processCredential", "src/keri/vdr/verifying.py:Verifier.verifyChain", "src/keri/vdr/verifying.py:Verifier.saveCredential"]}
{"id": "C64", "title": "Chains of credentials are complete and have no cycles", "statement": "Following edges from an accepted credential meets accepted credentials only and comes to an end.", "quantifier": "all histories, chains of any length", "why_tests_cant": "It is an invariant of every history of messages, of any length and in any order; tests replay a handful of histories.", "anchors": ["src/keri/vdr/verifying.py:Verifier.processCredential", "src/keri/vdr/verifying.py:Verifier.verifyChain"]}
{"id": "C65", "title": "A credential was issued by the issuer it names", "statement": "The transaction events in the log of an accepted credential are sealed in the key event log of the identifier the credential names as its issuer.", "quantifier": "all histories, including credentials and registries made by others", "why_tests_cant": "It is an invariant of every history of messages, of any length and in any order; tests replay a handful of histories.", "anchors": ["src/keri/vdr/verifying.py:Verifier.processCredential", "src/keri/vdr/eventing.py:Tever.vcState"]}
{"id": "C66", "title": "Revoked credentials are not accepted", "statement": "Once a credential is revoked, neither it nor a credential with an edge to it is accepted any more.", "quantifier": "all histories, whatever arrives after the revocation", "why_tests_cant": "It is an invariant of every history of messages, of any length and in any order; tests replay a handful of histories.", "anchors": ["src/keri/vdr/verifying.py:Verifier.processCredential", "src/keri/vdr/verifying.py:Verifier.verifyChain"]}
{"id": "C67", "title": "Waiting credentials are accepted once what they lack has come", "statement": "A credential that lacks its registry, schema or the far end of an edge waits and is never dropped before its time; the next escrow pass after all conditions are met accepts it.", "quantifier": "all orders of arrival, all interleavings with escrow passes, any number of waiting credentials", "why_tests_cant": "It is an invariant of every history of messages, of any length and in any order; tests replay a handful of histories.", "anchors": ["src/keri/vdr/verifying.py:Verifier.processEscrows", "src/keri/vdr/verifying.py:Verifier._processEscrow", "src/keri/vdr/verifying.py:Verifier.escrowMRE", "src/keri/vdr/verifying.py:Verifier.escrowMCE", "src/keri/vdr/verifying.py:Verifier.escrowMSE"]}
{"id": "C68", "title": "Credential indices are exact", "statement": "The lists of credentials by issuer, by issuee and by schema contain exactly the accepted credentials with that issuer, issuee or schema, each once.", "quantifier": "all histories, including repeated deliveries", "why_tests_cant": "It is an invariant of every history of messages, of any length and in any order; tests replay a handful of histories.", "anchors": ["src/keri/vdr/verifying.py:Verifier.saveCredential", "src/keri/vdr/eventing.py:Reger.logCred"]}
{"id": "C69", "title": "The anchor of a credential is genuine", "statement": "The anchor stored with an accepted credential names an event that anchors it, and stays the same.", "quantifier": "all histories, including repeated deliveries with other anchors", "why_tests_cant": "It is an invariant of every history of messages, of any length and in any order; tests replay a handful of histories.", "anchors": ["src/keri/vdr/eventing.py:Reger.logCred", "src/keri/vdr/eventing.py:Reger.cloneCred", "src/keri/vdr/verifying.py:Verifier.saveCredential"]}
{"id": "C70", "title": "Rotations reveal exactly the keys committed to", "statement": "The public keys a rotation returns for an identifier are those whose digests the previous call for that identifier returned, in the same order.", "quantifier": "all histories of calls for any number of identifiers, restarts and interruptions", "why_tests_cant": "It is an invariant of every history of messages, of any length and in any order; tests replay a handful of histories.", "anchors": ["src/keri/app/keeping.py:Manager.incept", "src/keri/app/keeping.py:Manager.rotate", "src/keri/app/keeping.py:Manager.replay", "src/keri/app/keeping.py:Manager.move"]}
{"id": "C71", "title": "Private keys in use are never lost", "statement": "The manager can sign with the current keys of every identifier, and can rotate every identifier whose next keys are not empty.", "quantifier": "all histories of calls for any number of identifiers, restarts, changes of the authentication identifier", "why_tests_cant": "It is an invariant of every history of messages, of any length and in any order; tests replay a handful of histories.", "anchors": ["src/keri/app/keeping.py:Manager.incept", "src/keri/app/keeping.py:Manager.rotate", "src/keri/app/keeping.py:Manager.sign", "src/keri/app/keeping.py:Manager.updateAeid"]}
{"id": "C72", "title": "Keys are never used twice", "statement": "No two keys derived from the root salt for one identifier are equal, and no key belongs to two identifiers.", "quantifier": "all histories, all numbers of keys, identifiers and rotations", "why_tests_cant": "It is an invariant of every history of messages, of any length and in any order; tests replay a handful of histories.", "anchors": ["src/keri/app/keeping.py:SaltyCreator.create", "src/keri/app/keeping.py:Manager.incept", "src/keri/app/keeping.py:Manager.rotate"]}
{"id": "C73", "title": "Replaced private keys are erased", "statement": "After a rotation with erasure the private keys before the previous ones are gone and no later call can sign with them.", "quantifier": "all histories of calls", "why_tests_cant": "It is an invariant of every history of messages, of any length and in any order; tests replay a handful of histories.", "anchors": ["src/keri/app/keeping.py:Manager.rotate", "src/keri/app/keeping.py:Manager.replay", "src/keri/app/keeping.py:Manager.sign"]}
{"id": "C74", "title": "Secrets at rest are encrypted and open with the right seed only", "statement": "Once an authentication identifier is set, every private key and salt in the key store is encrypted for it; a manager opened with another seed is refused, and one opened with the right seed reads all of them.", "quantifier": "all histories of calls, restarts, changes of the authentication identifier", "why_tests_cant": "It is an invariant of every history of messages, of any length and in any order; tests replay a handful of histories.", "anchors": ["src/keri/app/keeping.py:Manager.setup", "src/keri/app/keeping.py:Manager.updateAeid", "src/keri/app/keeping.py:Manager.incept", "src/keri/app/keeping.py:Manager.ingest"]}
{"id": "C75", "title": "Interrupted calls leave a usable key store", "statement": "If a call is interrupted at any point, after a restart every identifier can be used as before the call or as after it, and new ones can be made.", "quantifier": "all calls, all points of interruption", "why_tests_cant": "It is an invariant of every history of messages, of any length and in any order; tests replay a handful of histories.", "anchors": ["src/keri/app/keeping.py:Manager.incept", "src/keri/app/keeping.py:Manager.rotate", "src/keri/app/keeping.py:Manager.move", "src/keri/app/keeping.py:Manager.updateAeid"]}
{"id": "C76", "title": "Signatures are made with the keys asked for and carry the indices asked for", "statement": "Signing returns one signature for each public key given, in order, made with its private key, with the given or default indices; it raises if a key is missing or an index is not a whole number.", "quantifier": "all lists of keys and indices, all key stores", "why_tests_cant": "The input space is infinite; a test fixes finitely many inputs and says nothing about the others.", "anchors": ["src/keri/app/keeping.py:Manager.sign"]}
{"id": "C77", "title": "An ingested key sequence is replayed exactly", "statement": "After a key sequence was ingested, successive replays return its key sets in order, with the digests of the following set, then report the end and leave the key store unchanged.", "quantifier": "all key sequences, all starting positions", "why_tests_cant": "The input space is infinite; a test fixes finitely many inputs and says nothing about the others.", "anchors": ["src/keri/app/keeping.py:Manager.ingest", "src/keri/app/keeping.py:Manager.replay"]}
{"id": "C78", "title": "Indexed signatures round trip in text and binary", "statement": "Parsing the .qb64 text or the .qb2 bytes of any signature Siger accepts gives the same code, index, other index and signature bytes; the binary form is the Base64 decoding of the text form.", "quantifier": "all signature codes, indices, other indices and signature bytes", "why_tests_cant": "The input space is infinite; a test fixes finitely many inputs and says nothing about the others.", "anchors": ["src/keri/core/indexing.py:Indexer._infil", "src/keri/core/indexing.py:Indexer._exfil", "src/keri/core/indexing.py:Indexer._binfil", "src/keri/core/indexing.py:Indexer._bexfil"]}
{"id": "C79", "title": "Indexed signatures are self-framing and truncation is noticed", "statement": "Whatever follows a signature in a stream changes neither what is read nor how much is consumed; a concatenation of signatures reads back as the same list; every proper front part of a signature, in text or bytes, asks for more.", "quantifier": "all signatures, all continuations of the stream, all cut points", "why_tests_cant": "The input space is infinite; a test fixes finitely many inputs and says nothing about the others.", "anchors": ["src/keri/core/indexing.py:Siger", "src/keri/core/indexing.py:Indexer._exfil", "src/keri/core/indexing.py:Indexer._bexfil"]}
{"id": "C80", "title": "A signature carries the index asked for or is refused", "statement": "Siger accepts an index and other index exactly if they fit the code; a code for the current key list carries no other index; signing chooses a code that carries the given indices and refuses those beyond 4095.", "quantifier": "all suites, all integers as index and other index", "why_tests_cant": "The input space is infinite; a test fixes finitely many inputs and says nothing about the others.", "anchors": ["src/keri/core/indexing.py:Indexer.__init__", "src/keri/core/indexing.py:Siger", "src/keri/core/signing.py:Signer._ed25519", "src/keri/core/signing.py:Signer._secp256r1", "src/keri/core/signing.py:Signer._secp256k1"]}
{"id": "C81", "title": "Counters round trip, are self-framing and never misread", "statement": "Parsing the text or the bytes of any counter the constructor accepts gives the same code and count whatever follows; a counter has one text; every proper front part asks for more; a count that does not fit the short form of a code is carried by its long form, up to 64**5-1.", "quantifier": "all codes of both versions, all counts, all continuations and cut points", "why_tests_cant": "The input space is infinite; a test fixes finitely many inputs and says nothing about the others.", "anchors": ["src/keri/core/counting.py:Counter.__init__", "src/keri/core/counting.py:Counter._exfil", "src/keri/core/counting.py:Counter._bexfil", "src/keri/core/counting.py:Counter._infil", "src/keri/core/counting.py:Counter._binfil"]}
{"id": "C82", "title": "Groups give back their content", "statement": "The counter at the front of an enclosed group says exactly where its content ends, in text and in bytes, for groups nested to any depth; converting a group, or any stream of primitives, signatures and counters, between the domains is the same as converting its members.", "quantifier": "all contents, codes, nestings and streams", "why_tests_cant": "The input space is infinite; a test fixes finitely many inputs and says nothing about the others.", "anchors": ["src/keri/core/counting.py:Counter.enclose", "src/keri/core/counting.py:Counter.byteCount", "src/keri/core/counting.py:Counter.fullSize"]}
{"id": "C83", "title": "Version codes of streams are faithful", "statement": "The version counter carries every version with major up to 63 and minor up to 4095 and gives it back; other versions are refused and different versions have different codes.", "quantifier": "all integers as major and minor version", "why_tests_cant": "The input space is infinite; a test fixes finitely many inputs and says nothing about the others.", "anchors": ["src/keri/core/counting.py:Counter.verToB64", "src/keri/core/counting.py:Counter.b64ToVer", "src/keri/core/counting.py:Counter.makeGVC"]}
{"id": "C84", "title": "Version strings are faithful", "statement": "Reading a version string written by versify gives back protocol, versions, serialization kind and size, whatever follows it; it is found at the front of a message behind at most eight bytes without capital letters; what is read is written again as the same characters; arguments that do not fit are refused.", "quantifier": "all protocols, versions, kinds and sizes; all bytes as version string; all messages", "why_tests_cant": "The input space is infinite; a test fixes finitely many inputs and says nothing about the others.", "anchors": ["src/keri/kering.py:versify", "src/keri/kering.py:deversify", "src/keri/kering.py:rematch", "src/keri/kering.py:smell"]}
{"id": "C85", "title": "Built messages are read back", "statement": "The bytes messagize builds from a body, signatures, receipts, seals, bonds, nested messages and the other attachments are parsed to exactly one message with the same body, the same attachments in the same lists and order, and the same nested messages, whatever the layout asked for and whether the stream is framed or not.", "quantifier": "all arguments of messagize, both versions and both codings of the reader", "why_tests_cant": "The input space is infinite; a test fixes finitely many inputs and says nothing about the others.", "anchors": ["src/keri/core/eventing.py:messagize", "src/keri/core/parsing.py:Parser.parse", "src/keri/core/parsing.py:Parser.msgParsator"]}
{"id": "C86", "title": "Streams of messages are read back", "statement": "A stream of messages built one after the other, each in its own layout and version, is parsed to these messages, all of them, in order and nothing else.", "quantifier": "all series of messages", "why_tests_cant": "The input space is infinite; a test fixes finitely many inputs and says nothing about the others.", "anchors": ["src/keri/core/eventing.py:messagize", "src/keri/core/parsing.py:Parser.parse", "src/keri/core/parsing.py:Parser.groupParsator"]}
{"id": "C87", "title": "Messages do not depend on how the stream arrives", "statement": "However a stream is cut into pieces on its way, the messages that arrived completely are delivered, all of them, in order, and nothing is made of the beginning of the next.", "quantifier": "all series of messages and all ways to cut the stream", "why_tests_cant": "It is an invariant of every history of messages, of any length and in any order; tests replay a handful of histories.", "anchors": ["src/keri/core/parsing.py:Parser.parsator", "src/keri/core/parsing.py:Parser.groupParsator", "src/keri/core/parsing.py:Parser.msgParsator", "src/keri/core/parsing.py:Parser._extractor"]}
{"id": "C88", "title": "Failures stay in their group", "statement": "Whatever is in a generic group, the messages before it and after it are delivered, all of them and in order, and parsing comes to an end.", "quantifier": "all series of messages and all contents of the group", "why_tests_cant": "The input space is infinite; a test fixes finitely many inputs and says nothing about the others.", "anchors": ["src/keri/core/parsing.py:Parser.groupParsator", "src/keri/core/parsing.py:Parser.parse"]}
{"id": "C89", "title": "Text and binary are the same message", "statement": "A body with attachments in text or in binary, in an attachment group or one after the other, is the same message to the receiver.", "quantifier": "all bodies, all lists of attachments, both codings", "why_tests_cant": "The input space is infinite; a test fixes finitely many inputs and says nothing about the others.", "anchors": ["src/keri/core/parsing.py:Parser.msgParsator", "src/keri/core/parsing.py:Parser._extractor", "src/keri/core/counting.py:Counter.enclose"]}
{"id": "C90", "title": "Generic groups are transparent", "statement": "Messages that begin with a counter can be put in generic groups, these in generic groups again, to any depth and with or without a change of version at the front: all messages are delivered, in order, and after a group the version is that from before it.", "quantifier": "all nestings of groups and messages", "why_tests_cant": "The input space is infinite; a test fixes finitely many inputs and says nothing about the others.", "anchors": ["src/keri/core/parsing.py:Parser.groupParsator", "src/keri/core/counting.py:Counter.enclose"]}
{"id": "C91", "title": "No message is handed on twice", "statement": "While replay protection is enabled for a message (no denial covers it), a query, reply or exchange message with a given sender and digest is handed on for processing at most once, however often and in whatever company it arrives, whatever is pruned in between and whenever the process is restarted.", "quantifier": "all histories of deliveries (with arbitrary key states and attachments), prunings and restarts with a clock that does not go back; all valid settings", "why_tests_cant": "It is an invariant of every history of messages, of any length and in any order; tests replay a handful of histories.", "anchors": ["src/keri/core/kraming.py:Kramer.intake", "src/keri/core/kraming.py:Kramer.kramit", "src/keri/core/kraming.py:Pruner"]}
{"id": "C92", "title": "Only authentic messages are handed on", "statement": "A message that replay protection hands on is sealed in an event of its sender, or signed by the sender who is a key, or by the only current key of the sender, or by current keys of the sender that satisfy the signing threshold, with signatures that came with it now or earlier while the key state was the one it is now.", "quantifier": "all histories of deliveries, prunings, changes of settings and restarts", "why_tests_cant": "It is an invariant of every history of messages, of any length and in any order; tests replay a handful of histories.", "anchors": ["src/keri/core/kraming.py:Kramer.kramit", "src/keri/core/kraming.py:Kramer._verifyAttachedSigs", "src/keri/core/kraming.py:Kramer._validateSenderSeal"]}
{"id": "C93", "title": "Only timely messages are handed on", "statement": "A message that replay protection hands on arrived, now or earlier, at a time that is not further from its time stamp than the settings in force for it allowed then.", "quantifier": "all histories of deliveries, prunings, changes of settings and restarts", "why_tests_cant": "It is an invariant of every history of messages, of any length and in any order; tests replay a handful of histories.", "anchors": ["src/keri/core/kraming.py:Kramer.kramit"]}
{"id": "C94", "title": "Changes of settings keep the protection", "statement": "A change of the settings of replay protection at runtime, or a restart with other settings, never lets a message be handed on a second time, and messages are handled after it as before.", "quantifier": "all histories with changes of settings", "why_tests_cant": "It is an invariant of every history of messages, of any length and in any order; tests replay a handful of histories.", "anchors": ["src/keri/core/kraming.py:Kramer.changeConfig", "src/keri/core/kraming.py:Kramer.reconcileConfig"]}
{"id": "C95", "title": "Changes of settings leave no hole", "statement": "After an accepted change of settings every message the old settings applied to has settings that apply to it; a change with a hole is refused and a refused change changes nothing.", "quantifier": "all settings before and after, all messages", "why_tests_cant": "The input space is infinite; a test fixes finitely many inputs and says nothing about the others.", "anchors": ["src/keri/core/kraming.py:Kramer.changeConfig", "src/keri/core/kraming.py:Kramer._validateCoverage", "src/keri/core/kraming.py:Kramer._fetchCacheType"]}
{"id": "C96", "title": "Pruning keeps what is in its window and nothing else", "statement": "A round of pruning removes exactly the entries out of their windows from the caches; signatures that wait for others always belong to an entry in a cache and go with it.", "quantifier": "all histories", "why_tests_cant": "It is an invariant of every history of messages, of any length and in any order; tests replay a handful of histories.", "anchors": ["src/keri/core/kraming.py:Pruner._pruneMessages", "src/keri/core/kraming.py:Pruner._pruneExchanges"]}
{"id": "C97", "title": "What the parser hands on is well formed", "statement": "Whatever bytes arrive, in one piece or many, every message the parser hands on was deserialized from exactly the bytes it announces, and each of its lists of attachments holds complete elements whose parts are primitives of the classes that belong there, with codes the class accepts and raw bytes as many as the code says; the same of nested messages.", "quantifier": "all streams of bytes, all ways to cut them, both versions, framed or not", "why_tests_cant": "The input space is infinite; a test fixes finitely many inputs and says nothing about the others.", "anchors": ["src/keri/core/parsing.py:Parser.parse", "src/keri/core/parsing.py:Parser.parsator", "src/keri/core/parsing.py:Parser.groupParsator", "src/keri/core/parsing.py:MsgParseDom"]}
{"id": "C98", "title": "Changes of settings take effect", "statement": "A change of settings never makes the window of acceptance of a cache type wider at once; narrower windows and removals apply at once; once the widest of the new windows (or the waiting time ordered) has passed, the settings in force are the new ones and nothing waits; after a restart the configured settings are in force; invalid settings and waiting times are refused.", "quantifier": "all settings before and after, all times", "why_tests_cant": "It is an invariant of every history of messages, of any length and in any order; tests replay a handful of histories.", "anchors": ["src/keri/core/kraming.py:Kramer.changeConfig", "src/keri/core/kraming.py:Kramer.reconcileConfig", "src/keri/core/kraming.py:Kramer._populateCtyp"]}
{"id": "C99", "title": "Authentic messages in time are handed on", "statement": "A message shown to be from its sender by what comes with it, which arrives for the first time and in time, is handed on at once, also at the beginning of an exchange and within one that has begun; a message of a sender with several keys is handed on once the signatures of all its deliveries satisfy the threshold; exempt messages are handed on unchanged.", "quantifier": "all histories before and between the deliveries", "why_tests_cant": "It is an invariant of every history of messages, of any length and in any order; tests replay a handful of histories.", "anchors": ["src/keri/core/kraming.py:Kramer.intake", "src/keri/core/kraming.py:Kramer.kramit", "src/keri/core/kraming.py:Pruner"]}
{"id": "C100", "title": "Signatures handed on are good", "statement": "Of the signatures attached as the sender's, only those are handed on with a message that came with it, now or before, and are good for the current key state of the sender.", "quantifier": "all histories of deliveries, prunings, changes of settings and restarts", "why_tests_cant": "It is an invariant of every history of messages, of any length and in any order; tests replay a handful of histories.", "anchors": ["src/keri/core/kraming.py:Kramer._scrubFailedVerification", "src/keri/core/kraming.py:Kramer._scrubSameSenderPriorEventTsgs", "src/keri/core/kraming.py:Kramer._verifyAttachedSigs"]}
{"id": "C101", "title": "Peer to peer messages are from their sender", "statement": "Every peer to peer message that is saved came, and enough signatures that came with it satisfy the threshold of some event of its sender known at the time, made with the keys of that event; or its sender is a key and signed it.", "quantifier": "all histories of deliveries, with any attachments and any knowledge of key events, and of looks at messages that wait", "why_tests_cant": "It is an invariant of every history of messages, of any length and in any order; tests replay a handful of histories.", "anchors": ["src/keri/peer/exchanging.py:Exchanger.processEvent", "src/keri/peer/exchanging.py:Exchanger.processEscrowPartialSigned"]}
{"id": "C102", "title": "Handlers get what is saved, and nothing else", "statement": "A handler is given a message only if it is from its sender, saved, of the route of the handler, and not refused by it, and no message is given to it twice.", "quantifier": "all histories, all handlers", "why_tests_cant": "It is an invariant of every history of messages, of any length and in any order; tests replay a handful of histories.", "anchors": ["src/keri/peer/exchanging.py:Exchanger.processEvent", "src/keri/vc/protocoling.py:IpexHandler", "src/keri/acdc/ipexing.py:IpexHandler"]}
{"id": "C103", "title": "Conversations about credentials follow the protocol", "statement": "Every saved message of the issuance and presentation exchange is the last of a chain of saved messages, each the answer to the one before, whose verbs are apply, offer, agree, grant, admit in this order, beginning with apply, offer or grant, or end with a spurn of one that can be spurned.", "quantifier": "all histories of deliveries of any messages, both versions of the handler", "why_tests_cant": "It is an invariant of every history of messages, of any length and in any order; tests replay a handful of histories.", "anchors": ["src/keri/vc/protocoling.py:IpexHandler.verify", "src/keri/acdc/ipexing.py:IpexHandler.verify"]}
{"id": "C104", "title": "One answer in a conversation", "statement": "Of the messages of the issuance and presentation exchange that answer the same message at most one is saved.", "quantifier": "all histories of deliveries of any messages, both versions of the handler", "why_tests_cant": "It is an invariant of every history of messages, of any length and in any order; tests replay a handful of histories.", "anchors": ["src/keri/vc/protocoling.py:IpexHandler.response", "src/keri/acdc/ipexing.py:IpexHandler.response"]}
{"id": "C105", "title": "Signatures that come one by one add up", "statement": "If the signatures that came with deliveries of a peer to peer message together satisfy the threshold of its sender, the next look at the messages that wait saves it, if none of them has waited too long.", "quantifier": "all histories in which other messages come and go between", "why_tests_cant": "It is an invariant of every history of messages, of any length and in any order; tests replay a handful of histories.", "anchors": ["src/keri/peer/exchanging.py:Exchanger.escrowPSEvent", "src/keri/peer/exchanging.py:Exchanger.processEscrowPartialSigned"]}
{"id": "C106", "title": "Peer to peer messages do not wait for ever", "statement": "After a look at the messages that wait, each that still does came no more than ten seconds before.", "quantifier": "all histories", "why_tests_cant": "It is an invariant of every history of messages, of any length and in any order; tests replay a handful of histories.", "anchors": ["src/keri/peer/exchanging.py:Exchanger.processEscrowPartialSigned"]}
{"id": "C107", "title": "Sealed contents are those the message names", "statement": "A peer to peer message that names the digest of its contents is saved only if it came with contents of that digest.", "quantifier": "all histories", "why_tests_cant": "It is an invariant of every history of messages, of any length and in any order; tests replay a handful of histories.", "anchors": ["src/keri/peer/exchanging.py:Exchanger.processEvent"]}
{"id": "C108", "title": "What is saved can be read again", "statement": "A peer to peer message that has been saved can be read again and its signatures verified, whatever comes later.", "quantifier": "all histories after it has been saved", "why_tests_cant": "It is an invariant of every history of messages, of any length and in any order; tests replay a handful of histories.", "anchors": ["src/keri/peer/exchanging.py:cloneMessage", "src/keri/peer/exchanging.py:verify", "src/keri/peer/exchanging.py:Exchanger.logEvent"]}
{"id": "C109", "title": "A mailbox keeps messages in order", "statement": "Storing a message in a mailbox succeeds, and reading the mailbox yields exactly the messages that arrived for it, in the order of their arrival and numbered 0, 1, 2 and so on.", "quantifier": "all histories of arrivals for any mailboxes, with interruptions of the provider anywhere", "why_tests_cant": "It is an invariant of every history of messages, of any length and in any order; tests replay a handful of histories.", "anchors": ["src/keri/app/storing.py:Mailboxer.storeMsg", "src/keri/app/storing.py:Mailboxer.cloneTopicIter", "src/keri/app/storing.py:Mailboxer.getTopicMsgs"]}
{"id": "C110", "title": "Polling skips no message", "statement": "When a client has recorded a number for a topic, every message of the topic with that number or a smaller one has been handed on; and a client that asks anew and takes the answer has been handed every message stored for it.", "quantifier": "all histories of arrivals, connections made and lost, deaths of provider and client", "why_tests_cant": "It is an invariant of every history of messages, of any length and in any order; tests replay a handful of histories.", "anchors": ["src/keri/app/indirecting.py:Poller.eventDo", "src/keri/app/indirecting.py:MailboxIterable"]}
{"id": "C111", "title": "Polled messages are handed on once and in order", "statement": "The messages of a topic handed on by a poller are the first so many that arrived, each once and in the order of their arrival, and the parser gets them in the order in which they were handed on.", "quantifier": "all histories of arrivals and of connections made and lost", "why_tests_cant": "It is an invariant of every history of messages, of any length and in any order; tests replay a handful of histories.", "anchors": ["src/keri/app/indirecting.py:Poller.eventDo", "src/keri/app/indirecting.py:MailboxIterable", "src/keri/app/indirecting.py:MailboxDirector.pollDo"]}
{"id": "C112", "title": "A mailbox is its owner's", "statement": "What a poller hands on arrived for the mailbox of its identifier and topic, a message forwarded to someone else or to another topic does not appear in it, and only the owner can read it.", "quantifier": "all histories, all receivers and topics of forwarded messages", "why_tests_cant": "It is an invariant of every history of messages, of any length and in any order; tests replay a handful of histories.", "anchors": ["src/keri/app/forwarding.py:ForwardHandler.handle", "src/keri/app/indirecting.py:Poller.eventDo", "src/keri/core/eventing.py:Kevery.processQuery"]}
{"id": "C113", "title": "Requests are answered with what they asked for", "statement": "A request for a mailbox gets the stream that its own query asked for and no other, no query is lost or answered twice, and every request whose query was accepted gets its stream.", "quantifier": "all orders in which queries arrive and requests are asked for data", "why_tests_cant": "It is an invariant of every history of messages, of any length and in any order; tests replay a handful of histories.", "anchors": ["src/keri/app/indirecting.py:QryRpyMailboxIterable"]}
{"id": "C114", "title": "What is nested is what is named", "statement": "A saved message of the issuance and presentation exchange came with exactly the messages that its attributes name nested in it.", "quantifier": "all histories of deliveries of any messages, second version of the handler", "why_tests_cant": "It is an invariant of every history of messages, of any length and in any order; tests replay a handful of histories.", "anchors": ["src/keri/acdc/ipexing.py:IpexHandler.verify", "src/keri/peer/exchanging.py:Exchanger.processEvent"]}
{"id": "C115", "title": "Missing events are asked for once", "statement": "There are at most as many queries for missing key events as deliveries of peer to peer messages, however often the messages that wait are looked at.", "quantifier": "all histories", "why_tests_cant": "It is an invariant of every history of messages, of any length and in any order; tests replay a handful of histories.", "anchors": ["src/keri/peer/exchanging.py:Exchanger.escrowPSEvent", "src/keri/peer/exchanging.py:Exchanger.processEvent"]}
{"id": "C116", "title": "A field map is read as it was written", "statement": "Reading the native serialization of a field map yields the same map and leaves exactly what follows on the stream, in text and in binary; and no two maps are written alike.", "quantifier": "all maps of texts, numbers, booleans, nulls, lists and maps nested to any depth, all that follows on the stream", "why_tests_cant": "The input space is infinite; a test fixes finitely many inputs and says nothing about the others.", "anchors": ["src/keri/core/mapping.py:Mapper._exhale", "src/keri/core/mapping.py:Mapper._inhale", "src/keri/core/mapping.py:Mapper.qb2", "src/keri/core/coring.py:Labeler"]}
{"id": "C117", "title": "A map made with SAIDs verifies", "statement": "A map made with SAIDs verifies, as a map and when received in its serialization; making its SAIDs again changes nothing, and making them changes no other field. Each SAID is a digest with the code of the value that was in its place.", "quantifier": "all maps, all sets of SAID fields, all kinds of serialization", "why_tests_cant": "The input space is infinite; a test fixes finitely many inputs and says nothing about the others.", "anchors": ["src/keri/core/mapping.py:Mapper.__init__", "src/keri/core/mapping.py:Mapper._exhale", "src/keri/core/coring.py:Diger"]}
{"id": "C118", "title": "A SAID commits to the map", "statement": "Two maps that verify and have the same SAID are the same, or they are a collision of a digest function.", "quantifier": "all pairs of maps", "why_tests_cant": "The input space is infinite; a test fixes finitely many inputs and says nothing about the others.", "anchors": ["src/keri/core/mapping.py:Mapper.__init__", "src/keri/core/mapping.py:Mapper._exhale"]}
{"id": "C119", "title": "Compaction ends in the most compact form", "statement": "Compacting a nested map ends, and what it leaves is the most compact form: every nested map with a SAID is replaced by the SAID of its own compact form, and the SAID of the whole is computed from that and verifies.", "quantifier": "all nested maps, all sets of SAID fields, all kinds of serialization", "why_tests_cant": "The input space is infinite; a test fixes finitely many inputs and says nothing about the others.", "anchors": ["src/keri/core/mapping.py:Compactor.compact", "src/keri/core/mapping.py:Compactor._trace"]}
{"id": "C120", "title": "Partial disclosures compact alike", "statement": "However much of a nested map is disclosed and however much is hidden behind SAIDs, the compact form, and so the SAID, is the same.", "quantifier": "all nested maps, all choices of the nested maps that are hidden", "why_tests_cant": "The input space is infinite; a test fixes finitely many inputs and says nothing about the others.", "anchors": ["src/keri/core/mapping.py:Compactor.compact"]}
{"id": "C121", "title": "What is disclosed is what was committed to", "statement": "Two disclosures whose compact forms have the same SAID agree in everything that both disclose, or a map in the one and a map in the other are a collision of a digest function.", "quantifier": "all pairs of nested maps, disclosed to any degree", "why_tests_cant": "The input space is infinite; a test fixes finitely many inputs and says nothing about the others.", "anchors": ["src/keri/core/mapping.py:Compactor.compact", "src/keri/core/mapping.py:Mapper.__init__"]}
{"id": "C122", "title": "Every selective disclosure verifies", "statement": "Whichever elements of an aggregate are disclosed, the disclosure shows exactly those, has the SAIDs of the others and the same aggregate value, and verifies. Making the aggregate changes only SAIDs.", "quantifier": "all lists of elements, all choices of those disclosed, all kinds of serialization", "why_tests_cant": "The input space is infinite; a test fixes finitely many inputs and says nothing about the others.", "anchors": ["src/keri/core/mapping.py:Aggor.__init__", "src/keri/core/mapping.py:Aggor.disclose", "src/keri/core/mapping.py:Aggor.verifyDisclosure"]}
{"id": "C123", "title": "An aggregate commits to its elements", "statement": "Two disclosures that verify with the same aggregate value have equally many elements, and at each place the same element or its SAID, or they are a collision of a digest function.", "quantifier": "all pairs of lists of elements, disclosed to any degree", "why_tests_cant": "The input space is infinite; a test fixes finitely many inputs and says nothing about the others.", "anchors": ["src/keri/core/mapping.py:Aggor.__init__", "src/keri/core/mapping.py:Aggor.verifyDisclosure"]}
{"id": "C124", "title": "An aggregate is read as it was written", "statement": "The native serialization of a list of elements with its aggregate is read back as that list, verifies, and leaves exactly what follows on the stream.", "quantifier": "all lists of elements that verify, all that follows on the stream", "why_tests_cant": "The input space is infinite; a test fixes finitely many inputs and says nothing about the others.", "anchors": ["src/keri/core/mapping.py:Aggor._exhale", "src/keri/core/mapping.py:Aggor._inhale", "src/keri/core/mapping.py:Aggor.__init__"]}
{"id": "C125", "title": "Every message that is made verifies", "statement": "A message made from any fields, of less than the size that a version string can state, verifies: its SAIDs are digests of its serialization with dummies in their place, its version string states its protocol, versions, kind and size, and the size is the number of its bytes. The fields that were given are in it unchanged, those that were missing have their defaults, and the codes of its SAIDs are those asked for.", "quantifier": "all maps of fields, all message types, versions and kinds", "why_tests_cant": "The input space is infinite; a test fixes finitely many inputs and says nothing about the others.", "anchors": ["src/keri/core/serdering.py:Serder.makify", "src/keri/core/serdering.py:Serder._verify"]}
{"id": "C126", "title": "The SAID of a message commits to its fields", "statement": "Two messages that are accepted and have the same digest in a SAID field have the same fields but for the SAIDs, and the same SAIDs if these have the same codes, or the two are a collision of a digest function.", "quantifier": "all pairs of accepted messages of one protocol, version and kind", "why_tests_cant": "The input space is infinite; a test fixes finitely many inputs and says nothing about the others.", "anchors": ["src/keri/core/serdering.py:Serder._verify", "src/keri/core/serdering.py:Serder._validate", "src/keri/core/serdering.py:Serder._compute"]}
{"id": "C127", "title": "Only messages with the fields of their type are accepted", "statement": "A message that is accepted, from bytes, from fields or made, is of a known type of its protocol and version; no required field is missing, the fields are in the order of the type, and there are no other fields unless the type allows them. KERI messages have exactly the fields of their type.", "quantifier": "all byte strings and all maps of fields", "why_tests_cant": "The input space is infinite; a test fixes finitely many inputs and says nothing about the others.", "anchors": ["src/keri/core/serdering.py:Serder._validate", "src/keri/core/serdering.py:SerderKERI._verify"]}
{"id": "C128", "title": "An accepted key event has a right prefix", "statement": "In a KERI message that is accepted the prefix is a prefix; that of a delegated event is a digest; a public key that is the prefix of an inception is its only key, with threshold one; an event with a nontransferable prefix has no next keys, no witnesses and no anchors; the delegator is a prefix.", "quantifier": "all byte strings and all maps of fields", "why_tests_cant": "The input space is infinite; a test fixes finitely many inputs and says nothing about the others.", "anchors": ["src/keri/core/serdering.py:SerderKERI._verify"]}
{"id": "C129", "title": "Messages are read as they were written", "statement": "The bytes of an accepted message are the serialization of its fields, its size is their number, and its version string and its SAIDs are right. A message is taken off the front of a stream and the rest is left, and a message that was made is read back as it was made.", "quantifier": "all accepted messages, all that follows on the stream", "why_tests_cant": "The input space is infinite; a test fixes finitely many inputs and says nothing about the others.", "anchors": ["src/keri/core/serdering.py:Serder.__init__", "src/keri/core/serdering.py:Serder._inhale", "src/keri/core/serdering.py:Serder._exhale"]}
{"id": "C130", "title": "Key store and log agree on every identifier of the host", "statement": "Whatever calls are made, messages arrive and restarts happen: for each identifier of the host that has a key state, the current keys of the key store are those of the key state, the digests of its next keys are those committed to, and the private keys of all of them are stored.", "quantifier": "all histories of a host: calls making, rotating and interacting, other messages in between, restarts", "why_tests_cant": "It is an invariant of every history of messages, of any length and in any order; tests replay a handful of histories.", "anchors": ["src/keri/app/habbing.py:Habery.makeHab", "src/keri/app/habbing.py:Hab.incept", "src/keri/app/habbing.py:Hab.rotate", "src/keri/app/habbing.py:BaseHab.interact", "src/keri/app/keeping.py:Manager.rotate", "src/keri/core/eventing.py:Kevery.processEvent"]}
{"id": "C131", "title": "What a call reports is what happened", "statement": "When making, rotating or interacting returns a message, its event is the last of the log and of the key state of the identifier, and nothing else was logged; when it raises, the database and all key states are as before.", "quantifier": "all histories of a host, all calls with any arguments", "why_tests_cant": "It is an invariant of every history of messages, of any length and in any order; tests replay a handful of histories.", "anchors": ["src/keri/app/habbing.py:Hab.incept", "src/keri/app/habbing.py:Hab.rotate", "src/keri/app/habbing.py:BaseHab.rotate", "src/keri/app/habbing.py:BaseHab.interact"]}
{"id": "C132", "title": "What can be built is taken", "statement": "A rotation succeeds exactly if its event can be built: one's own node takes everything the builders let pass. An interaction succeeds exactly if the identifier has a key state, was not abandoned and is not confined to establishment events. Making an identifier succeeds exactly if its event can be built, the name is free and the key store has no keys under the new identifier.", "quantifier": "all histories of a host, all arguments", "why_tests_cant": "It is an invariant of every history of messages, of any length and in any order; tests replay a handful of histories.", "anchors": ["src/keri/core/eventing.py:incept", "src/keri/core/eventing.py:rotate", "src/keri/core/eventing.py:interact", "src/keri/app/habbing.py:Hab.rotate", "src/keri/app/habbing.py:Hab.incept", "src/keri/app/habbing.py:BaseHab.interact"]}
{"id": "C133", "title": "An identifier can always be rotated", "statement": "A rotation without arguments succeeds whenever all next keys together satisfy the next threshold and no rotation was refused before: the next keys become current, as many new next keys are committed to, thresholds and witnesses stay.", "quantifier": "all histories of a host, all its identifiers", "why_tests_cant": "It is an invariant of every history of messages, of any length and in any order; tests replay a handful of histories.", "anchors": ["src/keri/app/habbing.py:Hab.rotate", "src/keri/app/habbing.py:BaseHab.rotate", "src/keri/core/eventing.py:rotate"]}
{"id": "C134", "title": "A refused rotation leaves the identifier as it was", "statement": "A rotation that raises leaves the node, the sequences of keys and all stored private keys as they were; only keys after the next ones may have been added. If such keys are there they become the next keys of the following rotation, however many are asked for.", "quantifier": "all histories of a host, all arguments", "why_tests_cant": "It is an invariant of every history of messages, of any length and in any order; tests replay a handful of histories.", "anchors": ["src/keri/app/habbing.py:Hab.rotate", "src/keri/app/keeping.py:Manager.rotate", "src/keri/app/keeping.py:Manager.replay"]}
{"id": "C135", "title": "A rotation erases old keys only", "statement": "A rotation that succeeds erases the private keys that were in use before the last ones and no others: the keys that were current are still stored, and the next ones are current.", "quantifier": "all histories of a host, all arguments", "why_tests_cant": "It is an invariant of every history of messages, of any length and in any order; tests replay a handful of histories.", "anchors": ["src/keri/app/habbing.py:Hab.rotate"]}
{"id": "C136", "title": "A rotation that is interrupted has happened or has not", "statement": "When the process stops in a rotation, key store and log agree after the restart, on the old keys or on the new ones, and the identifier can be rotated.", "quantifier": "all histories of a host, all points between the writes of a rotation", "why_tests_cant": "It is an invariant of every history of messages, of any length and in any order; tests replay a handful of histories.", "anchors": ["src/keri/app/habbing.py:Hab.rotate", "src/keri/app/keeping.py:Manager.rotate"]}
{"id": "C137", "title": "A group event that is reported complete was started, logged and receipted", "statement": "When the Counselor reports an event of a group complete, the event was handed to it before and has been logged; all witnesses of the group had receipted it, or the own member has the first key and the delegation of the last event of the group was complete. What has been reported is reported ever after, with the same digest.", "quantifier": "all histories of calls, passes, receipts, changes of the node, exceptions, stops at any write and restarts", "why_tests_cant": "It is an invariant of every history of messages, of any length and in any order; tests replay a handful of histories.", "anchors": ["src/keri/app/grouping.py:Counselor.start", "src/keri/app/grouping.py:Counselor.complete", "src/keri/app/grouping.py:Counselor.processEscrows"]}
{"id": "C138", "title": "A started group event waits or is complete", "statement": "A group event that was handed to the Counselor is in one of its escrows or has been reported complete, ever after.", "quantifier": "all histories of calls, passes, receipts, changes of the node, exceptions, stops at any write and restarts", "why_tests_cant": "It is an invariant of every history of messages, of any length and in any order; tests replay a handful of histories.", "anchors": ["src/keri/app/grouping.py:Counselor.start", "src/keri/app/grouping.py:Counselor.processPartialSignedEscrow", "src/keri/app/grouping.py:Counselor.processDelegateEscrow", "src/keri/app/grouping.py:Counselor.processPartialWitnessEscrow"]}
{"id": "C139", "title": "A group event that has all it needs is completed", "statement": "A group event that waits, is logged with signatures, has its approval if it needs one and all its receipts is complete after the next pass of the Counselor, whatever restarts came before.", "quantifier": "all states, all histories", "why_tests_cant": "It is an invariant of every history of messages, of any length and in any order; tests replay a handful of histories.", "anchors": ["src/keri/app/grouping.py:Counselor.processEscrows", "src/keri/app/agenting.py:Receiptor"]}
{"id": "C140", "title": "A delegated event that is reported complete was approved", "statement": "When the Anchorer reports a delegated event complete, the own node held a fully witnessed event of its delegator that seals it.", "quantifier": "all histories of calls, passes, receipts, changes of the node, exceptions, stops at any write and restarts", "why_tests_cant": "It is an invariant of every history of messages, of any length and in any order; tests replay a handful of histories.", "anchors": ["src/keri/app/delegating.py:Anchorer.delegation", "src/keri/app/delegating.py:Anchorer.complete", "src/keri/app/delegating.py:Anchorer.processEscrows"]}
{"id": "C141", "title": "A delegated event whose delegation was asked for waits or is complete", "statement": "An event for which delegation was asked is in one of the escrows of the Anchorer or has been reported complete, ever after.", "quantifier": "all histories of calls, passes, receipts, changes of the node, exceptions, stops at any write and restarts", "why_tests_cant": "It is an invariant of every history of messages, of any length and in any order; tests replay a handful of histories.", "anchors": ["src/keri/app/delegating.py:Anchorer.delegation", "src/keri/app/delegating.py:Anchorer.processPartialWitnessEscrow", "src/keri/app/delegating.py:Anchorer.processUnanchoredEscrow", "src/keri/app/delegating.py:Anchorer.processWitnessPublication"]}
{"id": "C142", "title": "An approved delegated event is completed", "statement": "A delegated event that waits for approval and is approved goes on to publication with the next pass of the Anchorer, and is complete when it has been published, whatever restarts came before.", "quantifier": "all states, all histories", "why_tests_cant": "It is an invariant of every history of messages, of any length and in any order; tests replay a handful of histories.", "anchors": ["src/keri/app/delegating.py:Anchorer.processUnanchoredEscrow", "src/keri/app/delegating.py:Anchorer.processWitnessPublication", "src/keri/app/delegating.py:Anchorer.publishDelegator"]}
{"id": "C143", "title": "The place of approval entered for an event is where it was approved", "statement": "When Counselor or Anchorer enter the place of approval for a delegated event, the event of the delegator at that place seals that delegated event.", "quantifier": "all states, all points between the writes of a pass", "why_tests_cant": "It is an invariant of every history of messages, of any length and in any order; tests replay a handful of histories.", "anchors": ["src/keri/app/grouping.py:Counselor.processDelegateEscrow", "src/keri/app/delegating.py:Anchorer.processUnanchoredEscrow"]}
{"id": "C144", "title": "Only approved content of group messages is processed as one's own", "statement": "What another member's message wraps is given to the own parser as local only if an own identifier has sent a message with the same proposal, and it is what was proposed.", "quantifier": "all sequences of messages of members and others, first and second version, own calls, stops at any write", "why_tests_cant": "It is an invariant of every history of messages, of any length and in any order; tests replay a handful of histories.", "anchors": ["src/keri/app/grouping.py:Multiplexor.validate", "src/keri/app/grouping.py:Multiplexor.add", "src/keri/app/grouping.py:Multiplexor._replayApproved", "src/keri/app/grouping.py:MultisigNotificationHandler"]}
{"id": "C145", "title": "All copies of an approved proposal are processed, in whatever order they come", "statement": "Once an own identifier has made a proposal, everything that is kept of messages of others with that proposal has been given to the own parser, whether they came before or after.", "quantifier": "all sequences of messages of members and others, own calls, stops at any write", "why_tests_cant": "It is an invariant of every history of messages, of any length and in any order; tests replay a handful of histories.", "anchors": ["src/keri/app/grouping.py:Multiplexor.add", "src/keri/app/grouping.py:Multiplexor._replayApproved"]}
{"id": "C146", "title": "The controller is told of proposals of groups of their own, and of all of them", "statement": "A notice is made only of messages of others which are about a group of an own identifier or invite one, and of each such message that is valid and whose proposal no own identifier has made yet.", "quantifier": "all sequences of messages of members and others, own calls, stops at any write", "why_tests_cant": "It is an invariant of every history of messages, of any length and in any order; tests replay a handful of histories.", "anchors": ["src/keri/app/grouping.py:Multiplexor.validate", "src/keri/app/grouping.py:Multiplexor.add"]}
{"id": "C147", "title": "Messages sent reach the processor of their type, in order, with what was attached", "statement": "However a stream of messages is cut into pieces, each is handed to the processor of its type, with the body and the attachments it was built with, in the order sent; what becomes of one message has no effect on the next being handed over.", "quantifier": "all streams of built messages, all ways to cut them into pieces, all states and processors, whatever exceptions these raise", "why_tests_cant": "The input space is infinite; a test fixes finitely many inputs and says nothing about the others.", "anchors": ["src/keri/core/parsing.py:Parser.msgProcess", "src/keri/core/parsing.py:Parser.groupParsator", "src/keri/core/parsing.py:MsgParseDom", "src/keri/core/eventing.py:Kevery.processMsg"]}
{"id": "C148", "title": "No processor is called for a message without the signatures its type needs", "statement": "A processor is only called with the method for the type of the message, with that message and its own attachments, and only if the message carries the signatures needed for its type; whatever bytes arrive.", "quantifier": "all byte streams in all pieces, all bodies and attachments, all processors", "why_tests_cant": "The input space is infinite; a test fixes finitely many inputs and says nothing about the others.", "anchors": ["src/keri/core/parsing.py:Parser.msgProcess", "src/keri/core/eventing.py:Kevery.processMsg"]}
{"id": "C149", "title": "Messages of refused senders are not processed", "statement": "A query, reply or exchange message whose sender is on the deny list, or not on an allow list in force, reaches no processor and changes nothing.", "quantifier": "all messages, senders and lists", "why_tests_cant": "The input space is infinite; a test fixes finitely many inputs and says nothing about the others.", "anchors": ["src/keri/core/eventing.py:Kevery.processMsg", "src/keri/core/parsing.py:Parser.msgProcess"]}
{"id": "C150", "title": "Queries are handed over for every kind of requester", "statement": "A query that carries a signature group of a transferable requester, or couples of non-transferable requesters, is handed to the processor of its route.", "quantifier": "all queries, routes and attachments, both versions", "why_tests_cant": "The input space is infinite; a test fixes finitely many inputs and says nothing about the others.", "anchors": ["src/keri/core/parsing.py:Parser.msgProcess", "src/keri/core/eventing.py:Kevery.processMsg"]}
{"id": "C151", "title": "Receipts attached to key events are not lost", "statement": "A receipt attached to a key event is stored, or waits, with the event it is attached to, whether the event is accepted at once or has to wait.", "quantifier": "all messages with key events and attached receipts, all states of the node", "why_tests_cant": "It is an invariant of every history of messages, of any length and in any order; tests replay a handful of histories.", "anchors": ["src/keri/core/parsing.py:Parser.msgProcess", "src/keri/core/eventing.py:Kevery.processAttachedReceiptCouples", "src/keri/core/eventing.py:Kevery.processAttachedReceiptSigGroups"]}
{"id": "C152", "title": "No stream of bytes brings a node into a state a sequence of signed messages could not", "statement": "Whatever bytes arrive and in whatever pieces, the key event logs and receipts of the node are those after a sequence of key events and receipts, each of which was read from the stream with the signatures attached to that message; in particular every event in a log was in the stream and is signed to the threshold in force.", "quantifier": "all byte streams in all pieces, all nodes", "why_tests_cant": "The input space is infinite; a test fixes finitely many inputs and says nothing about the others.", "anchors": ["src/keri/core/parsing.py:Parser.parsator", "src/keri/core/parsing.py:Parser.msgProcess", "src/keri/core/eventing.py:Kevery.processEvent", "src/keri/core/eventing.py:Kevery.processReceipt"]}
{"id": "C153", "title": "An event reported as complete is in its log, sealed and receipted", "statement": "When the Registrar reports an event of a registry or credential as complete, the event was asked for, its key event was receipted by as many witnesses as its controller has or completed by the group, the event is in its log, and the controller of the registry has sealed it. The same holds of whatever is handed on for sending.", "quantifier": "all histories of calls, passes, key events, registry events, receipts, restarts and stops at any write", "why_tests_cant": "It is an invariant of every history of messages, of any length and in any order; tests replay a handful of histories.", "anchors": ["src/keri/vdr/credentialing.py:Registrar.complete", "src/keri/vdr/credentialing.py:Registrar.processEscrows", "src/keri/vdr/credentialing.py:Registrar.issue"]}
{"id": "C154", "title": "No event asked for is lost", "statement": "An event for which the Registrar was called without exception waits or is entered as complete ever after; once entered as complete it stays so.", "quantifier": "all histories of calls, passes, key events, registry events, receipts, restarts and stops at any write", "why_tests_cant": "It is an invariant of every history of messages, of any length and in any order; tests replay a handful of histories.", "anchors": ["src/keri/vdr/credentialing.py:Registrar.incept", "src/keri/vdr/credentialing.py:Registrar.issue", "src/keri/vdr/credentialing.py:Registrar.revoke", "src/keri/vdr/credentialing.py:Registrar.processEscrows"]}
{"id": "C155", "title": "Events asked for become complete", "statement": "An event that is in its log and whose key event has its receipts, or was completed by the group, is entered as complete and handed on for sending by the next pass, and reported as complete once sent; also if the process was restarted in between.", "quantifier": "all states of stores and memory, all entries, all further histories", "why_tests_cant": "It is an invariant of every history of messages, of any length and in any order; tests replay a handful of histories.", "anchors": ["src/keri/vdr/credentialing.py:Registrar.processEscrows", "src/keri/vdr/credentialing.py:Registrar.complete", "src/keri/app/agenting.py:WitnessPublisher.sendDo"]}
{"id": "C156", "title": "An event reported as complete was sent", "statement": "When the Registrar reports an event as complete, a message with that event was sent to the witnesses.", "quantifier": "all histories of calls, passes and stops", "why_tests_cant": "It is an invariant of every history of messages, of any length and in any order; tests replay a handful of histories.", "anchors": ["src/keri/vdr/credentialing.py:Registrar.complete", "src/keri/app/agenting.py:WitnessPublisher.sent"]}
{"id": "C157", "title": "A credential reported as issued is accepted and anchored, for good", "statement": "When the Credentialer reports a credential as issued, the verifier has accepted it: it fits its schema, its edges lead to accepted credentials as they demand, its registry is known; an event of its log was entered as complete and is sealed by the controller of its registry. It stays reported as issued, with the same contents.", "quantifier": "all histories of calls, passes, key events, registry events, credentials, restarts and stops at any write", "why_tests_cant": "It is an invariant of every history of messages, of any length and in any order; tests replay a handful of histories.", "anchors": ["src/keri/vdr/credentialing.py:Credentialer.complete", "src/keri/vdr/credentialing.py:Credentialer.issue", "src/keri/vdr/credentialing.py:Credentialer.processEscrows"]}
{"id": "C158", "title": "A credential handed over for issuing waits until it is reported as issued", "statement": "A credential handed to the Credentialer waits until it is reported as issued; that happens with the next pass when it is accepted by the verifier and its issuance was reported as complete, also if the process was restarted since.", "quantifier": "all histories of calls, passes, credentials, restarts and stops at any write", "why_tests_cant": "It is an invariant of every history of messages, of any length and in any order; tests replay a handful of histories.", "anchors": ["src/keri/vdr/credentialing.py:Credentialer.issue", "src/keri/vdr/credentialing.py:Credentialer.processCredentialMissingSigEscrow"]}
{"id": "C159", "title": "The seal remembered for an event is that of the key event which anchors it", "statement": "After a call of the Registrar for an event with its anchoring key event, the event enters its log as soon as that key event is in its log.", "quantifier": "all states, calls and key event logs, for single controllers and groups", "why_tests_cant": "It is an invariant of every history of messages, of any length and in any order; tests replay a handful of histories.", "anchors": ["src/keri/vdr/credentialing.py:Registrar.issue", "src/keri/vdr/credentialing.py:Registrar.revoke", "src/keri/vdr/credentialing.py:Registrar.processMultisigEscrow", "src/keri/vdr/credentialing.py:BaseRegistry.anchorMsg"]}
{"id": "C160", "title": "The log of a blindable registry is a chain", "statement": "In the log of a registry of blindable state, event 0 is an inception whose digest is the identifier of the registry, every later one is an update of that registry with its place as number that names the digest of the event before it; two stores that agree in one event agree in all before it.", "quantifier": "all histories of calls, key events, crashes at any write and reopenings, of any two stores", "why_tests_cant": "It is an invariant of every history of messages, of any length and in any order; tests replay a handful of histories.", "anchors": ["src/keri/acdc/registraring.py:Registry.processEvent", "src/keri/acdc/registraring.py:Registry.processEscrows", "src/keri/acdc/registraring.py:Registry._commit"]}
{"id": "C161", "title": "Accepted registry events stay", "statement": "An event accepted for a number of a registry stays the event of that number.", "quantifier": "all histories of calls, key events, crashes at any write and reopenings", "why_tests_cant": "It is an invariant of every history of messages, of any length and in any order; tests replay a handful of histories.", "anchors": ["src/keri/acdc/registraring.py:Registry.processEvent", "src/keri/acdc/registering.py:RegistryStore.accept"]}
{"id": "C162", "title": "The head of a registry is its last accepted event", "statement": "The recorded head of a registry is the last event accepted for it, so that new updates are made after it.", "quantifier": "all histories of calls, key events, crashes at any write and reopenings", "why_tests_cant": "It is an invariant of every history of messages, of any length and in any order; tests replay a handful of histories.", "anchors": ["src/keri/acdc/registering.py:RegistryStore.accept", "src/keri/acdc/registraring.py:Registry.sn", "src/keri/acdc/registraring.py:Registry.blind"]}
{"id": "C163", "title": "Accepted registry events are sealed by the issuer of the registry", "statement": "For every accepted event of a registry, the key event log of the issuer of its inception had a seal of that event, in the then last event at its number and with enough witness receipts.", "quantifier": "all histories of calls, key events, crashes at any write and reopenings", "why_tests_cant": "It is an invariant of every history of messages, of any length and in any order; tests replay a handful of histories.", "anchors": ["src/keri/acdc/registraring.py:Registry._verifyAnchor", "src/keri/acdc/registraring.py:Registry.anchorMsg", "src/keri/acdc/registraring.py:Registry.processEvent"]}
{"id": "C164", "title": "Calls that raise leave no trace; accepted events have no rivals", "statement": "A call on a registry or its manager that raises changes nothing, in the store or in memory. An event for a number that has another accepted event, or that names another predecessor than the accepted one, raises.", "quantifier": "all states, calls and events", "why_tests_cant": "The input space is infinite; a test fixes finitely many inputs and says nothing about the others.", "anchors": ["src/keri/acdc/registraring.py:Registry._validateEvent", "src/keri/acdc/registraring.py:Registry.processEvent", "src/keri/acdc/registraring.py:Registry.anchorMsg", "src/keri/acdc/registraring.py:Registry.blind", "src/keri/acdc/registraring.py:Regery.makeRegistry"]}
{"id": "C165", "title": "The result of processing a registry event tells what became of it, and waiting events are kept", "statement": "After the result True the event is the accepted one of its number, after False it waits; an event that waits does so until its number has an accepted event, or the number before it has another one than it names.", "quantifier": "all histories of calls, key events, crashes at any write and reopenings", "why_tests_cant": "It is an invariant of every history of messages, of any length and in any order; tests replay a handful of histories.", "anchors": ["src/keri/acdc/registraring.py:Registry.processEvent", "src/keri/acdc/registraring.py:Registry._processMissingAnchors", "src/keri/acdc/registraring.py:Registry._processQueued"]}
{"id": "C166", "title": "One pass over the escrows accepts a whole sealed chain", "statement": "If nobody made competing events, one pass accepts every chain of events each of which is accepted, queued, or waiting for a seal which the log of the habitat now has, whatever the order in which they came.", "quantifier": "all states whose head is up to date, all chains of any length", "why_tests_cant": "It is an invariant of every history of messages, of any length and in any order; tests replay a handful of histories.", "anchors": ["src/keri/acdc/registraring.py:Registry.processEscrows", "src/keri/acdc/registraring.py:Registry._processMissingAnchors", "src/keri/acdc/registraring.py:Registry._processQueued"]}
{"id": "C167", "title": "Of competing updates the one sealed first is accepted", "statement": "Of several updates for one number which all name the accepted predecessor, the accepted one is the one whose seal comes first in the key event log.", "quantifier": "all sets of competing updates, all orders of arrival", "why_tests_cant": "It is an invariant of every history of messages, of any length and in any order; tests replay a handful of histories.", "anchors": ["src/keri/acdc/registraring.py:Registry._processQueued"]}
{"id": "C168", "title": "Updates made by a registry follow its head and are accepted once sealed", "statement": "An update which a registry makes for one of its credentials has the number after the head and names the head; it is accepted at once or waits, and is accepted once it is sealed. For credentials of another registry or issuer, or invalid ones, no update is made.", "quantifier": "all histories of updates made, seals and passes", "why_tests_cant": "It is an invariant of every history of messages, of any length and in any order; tests replay a handful of histories.", "anchors": ["src/keri/acdc/registraring.py:Registry.blind", "src/keri/acdc/registraring.py:Registry.processEvent"]}
{"id": "C169", "title": "An alias stands for the same registry for good", "statement": "An alias under which a registry was made stands for that registry ever after, also after the process was restarted.", "quantifier": "all histories of calls, crashes at any write and reopenings", "why_tests_cant": "It is an invariant of every history of messages, of any length and in any order; tests replay a handful of histories.", "anchors": ["src/keri/acdc/registraring.py:Regery.makeRegistry", "src/keri/acdc/registraring.py:Regery.loadRegistries", "src/keri/acdc/registraring.py:Regery.registryByName"]}
{"id": "C170", "title": "Native messages are read back with the fields they were made of", "statement": "A key event, receipt, query, reply, prod, bare or exchange message in native CESR is read back from its bytes with the same labels and values it was made of, whatever follows it.", "quantifier": "all message types of the protocol KERI, all values of fields, all following bytes", "why_tests_cant": "The input space is infinite; a test fixes finitely many inputs and says nothing about the others.", "anchors": ["src/keri/core/serdering.py:Serder._dumps", "src/keri/core/serdering.py:Serder._loads", "src/keri/core/structing.py:Sealer"]}
{"id": "C171", "title": "The SAID of a native message commits to its fields", "statement": "Two messages in native CESR that verify and have the same SAID have the same fields but for version string and SAIDs, unless they are a collision of the digest function.", "quantifier": "all pairs of messages", "why_tests_cant": "The input space is infinite; a test fixes finitely many inputs and says nothing about the others.", "anchors": ["src/keri/core/serdering.py:Serder._dumps", "src/keri/core/serdering.py:Serder._verify", "src/keri/core/serdering.py:Serder._compute"]}
{"id": "C172", "title": "Native messages that are made verify", "statement": "A message that is made in native CESR verifies: its bytes do not depend on the version string, so its size and SAIDs are right although the version string is filled in last.", "quantifier": "all message types of the protocol KERI, all values of fields", "why_tests_cant": "The input space is infinite; a test fixes finitely many inputs and says nothing about the others.", "anchors": ["src/keri/core/serdering.py:Serder.makify", "src/keri/core/serdering.py:Serder._exhale", "src/keri/core/serdering.py:Serder._dumps"]}
{"id": "C173", "title": "Native messages are found in a stream", "statement": "Given the front of a stream in the text or binary domain, with nothing known of it, a native message at its front is read and exactly its bytes are removed; from a part of a message nothing is read.", "quantifier": "all messages, all following bytes, all proper beginnings", "why_tests_cant": "The input space is infinite; a test fixes finitely many inputs and says nothing about the others.", "anchors": ["src/keri/core/serdering.py:Serder._inhale"]}
{"id": "C174", "title": "A replayed log reproduces the identifier", "statement": "The replay of an identifier's first-seen log has every event from the given ordinal on, in order, with all stored signatures. A node that holds nothing about the identifier and parses it ends with the same key state and log, and with its other identifiers unchanged.", "quantifier": "all histories of the replaying and of the receiving node, all identifiers and ordinals", "why_tests_cant": "It is an invariant of every history of messages, of any length and in any order; tests replay a handful of histories.", "anchors": ["src/keri/db/basing.py:Baser.clonePreIter", "src/keri/db/basing.py:Baser.cloneEvtMsg", "src/keri/core/eventing.py:Kevery.processEvent"]}
{"id": "C175", "title": "Cleaning the database verifies it and loses nothing", "statement": "After a clean every log in the database has been verified anew from its events, whatever the database held before; and key states, logs and own identifiers of a sound database are as they were.", "quantifier": "all database contents for the first part, all histories of the node for the second", "why_tests_cant": "It is an invariant of every history of messages, of any length and in any order; tests replay a handful of histories.", "anchors": ["src/keri/db/basing.py:Baser.clean", "src/keri/db/basing.py:Baser.cloneAllPreIter", "src/keri/core/eventing.py:Kevery.processEvent"]}
{"id": "C176", "title": "Keys made of parts are told apart", "statement": "The parts of a key, joined by the separator of a sub-database, are got back from the key, and different tuples of parts without separator are different keys; a key given as one text is the key of its parts.", "quantifier": "all tuples of parts, all separators", "why_tests_cant": "The input space is infinite; a test fixes finitely many inputs and says nothing about the others.", "anchors": ["src/keri/db/subing.py:SuberBase._tokey", "src/keri/db/subing.py:SuberBase._tokeys", "src/keri/db/koming.py:KomerBase._tokey"]}
{"id": "C177", "title": "A typed sub-database is a map from key tuples to values", "statement": "Every answer of put, pin, get and rem is that of a partial map from tuples of parts to values, values coming back as they were given; a value that cannot be written changes nothing.", "quantifier": "all histories of calls, all codecs on values that they read back", "why_tests_cant": "It is an invariant of every history of messages, of any length and in any order; tests replay a handful of histories.", "anchors": ["src/keri/db/subing.py:Suber", "src/keri/db/koming.py:Komer"]}
{"id": "C178", "title": "Typed sets keep order and uniqueness at each key tuple", "statement": "Every answer of put, add, pin, rem, get, getLast and cnt of a sub-database of sets is that of a list of distinct values in insertion order at each tuple of parts, and no call changes the values of another tuple.", "quantifier": "all histories of calls, all codecs on values that they read back", "why_tests_cant": "It is an invariant of every history of messages, of any length and in any order; tests replay a handful of histories.", "anchors": ["src/keri/db/subing.py:IoSetSuber", "src/keri/db/koming.py:IoSetKomer"]}
{"id": "C179", "title": "A branch is the items that continue its parts", "statement": "Iterating over, counting or removing the branch of leading parts concerns exactly the items whose key continues these parts, in key order, each once, and leaves all others.", "quantifier": "all histories of calls, all leading parts", "why_tests_cant": "It is an invariant of every history of messages, of any length and in any order; tests replay a handful of histories.", "anchors": ["src/keri/db/subing.py:SuberBase.getTopItemIter", "src/keri/db/subing.py:SuberBase.trim", "src/keri/db/subing.py:SuberBase.cntTop", "src/keri/db/koming.py:KomerBase.getTopItemIter"]}
{"id": "C180", "title": "What is written as a value is read back as it was", "statement": "Base64 texts, tuples of primitives of the given classes and records are read back equal to what was written, nested records as records; anything else is refused when it is written.", "quantifier": "all values", "why_tests_cant": "The input space is infinite; a test fixes finitely many inputs and says nothing about the others.", "anchors": ["src/keri/db/subing.py:B64SuberBase", "src/keri/db/subing.py:CatCesrSuberBase", "src/keri/db/koming.py:KomerBase", "src/keri/help/helping.py:datify"]}
{"id": "C181", "title": "A URL that was asked for is not forgotten", "statement": "A URL that the operator, a configuration or an accepted introduction asks for is, after any further history, waiting, requested, to be asked again, standing for other URLs, or has a result.", "quantifier": "all histories of requests, answers of servers, passes (those that raise included) and restarts, all URLs", "why_tests_cant": "It is an invariant of every history of messages, of any length and in any order; tests replay a handful of histories.", "anchors": ["src/keri/app/oobiing.py:Oobiery.processFlows", "src/keri/app/oobiing.py:Oobiery.request", "src/keri/app/oobiing.py:Oobiery.processReply"]}
{"id": "C182", "title": "The result of a URL is settled once and is that of its answer", "statement": "Once a URL has a result recorded, the record stays as it is whatever happens; it says resolved if and only if the answer was usable.", "quantifier": "all histories, all URLs", "why_tests_cant": "It is an invariant of every history of messages, of any length and in any order; tests replay a handful of histories.", "anchors": ["src/keri/app/oobiing.py:Oobiery.processClients", "src/keri/app/oobiing.py:Oobiery.processOobis"]}
{"id": "C183", "title": "Every answer settles its URL, whatever other URLs there are", "statement": "A pass gives every requested URL that was answered a result, unless it is to be asked again, and no URL and no answer keeps other URLs from being processed.", "quantifier": "all sets of requested URLs, all answers, all further histories", "why_tests_cant": "It is an invariant of every history of messages, of any length and in any order; tests replay a handful of histories.", "anchors": ["src/keri/app/oobiing.py:Oobiery.processClients", "src/keri/app/oobiing.py:Oobiery.processOobis"]}
{"id": "C184", "title": "A schema got from a URL has the SAID that was asked for", "statement": "Every schema that introductions put in the database has the SAID it is stored under, and this is the SAID in a URL or in a record that was asked for.", "quantifier": "all histories, all answers of servers", "why_tests_cant": "It is an invariant of every history of messages, of any length and in any order; tests replay a handful of histories.", "anchors": ["src/keri/app/oobiing.py:Oobiery.processClients"]}
{"id": "C185", "title": "Contacts get the alias that the operator gave them", "statement": "The alias of a contact entered by an introduction was given by the operator for that identifier; no server or peer changes the alias of a contact.", "quantifier": "all histories, all answers of servers, all introductions", "why_tests_cant": "It is an invariant of every history of messages, of any length and in any order; tests replay a handful of histories.", "anchors": ["src/keri/app/oobiing.py:Oobiery.processClients", "src/keri/app/oobiing.py:Oobiery.processReply", "src/keri/app/oobiing.py:Oobiery.processMultiOobiRpy"]}
{"id": "C186", "title": "A URL that stands for several has their result", "statement": "It has a result as soon as all of them have one and not before, failed if one of them failed and resolved otherwise.", "quantifier": "all states, all lists of URLs", "why_tests_cant": "It is an invariant of every history of messages, of any length and in any order; tests replay a handful of histories.", "anchors": ["src/keri/app/oobiing.py:Oobiery.processMOOBIs", "src/keri/app/oobiing.py:Oobiery.processMultiOobiRpy"]}
{"id": "C187", "title": "A well-known URL authenticates an identifier if its server confirms it", "statement": "The URL is entered as authentication of the identifier exactly if its server answers with a status of success.", "quantifier": "all statuses", "why_tests_cant": "The input space is infinite; a test fixes finitely many inputs and says nothing about the others.", "anchors": ["src/keri/app/oobiing.py:Authenticator.processMultiFactorAuth"]}
{"id": "C188", "title": "A contact is what the calls made of it", "statement": "After any updates, replacements, sets, unsets and removals of contacts, get gives for every identifier exactly the fields that the calls left it, with its id, and calls on other contacts do not change it.", "quantifier": "all histories of calls, all identifiers, field names and values", "why_tests_cant": "It is an invariant of every history of messages, of any length and in any order; tests replay a handful of histories.", "anchors": ["src/keri/app/organizing.py:BaseOrganizer.update", "src/keri/app/organizing.py:BaseOrganizer.replace", "src/keri/app/organizing.py:BaseOrganizer.set", "src/keri/app/organizing.py:BaseOrganizer.unset", "src/keri/app/organizing.py:BaseOrganizer.rem", "src/keri/app/organizing.py:BaseOrganizer.get"]}
{"id": "C189", "title": "The list of contacts is all of them, as they are", "statement": "After any history of calls, list gives every contact exactly once, with the same fields as get.", "quantifier": "all histories of calls, all identifiers, field names and values", "why_tests_cant": "It is an invariant of every history of messages, of any length and in any order; tests replay a handful of histories.", "anchors": ["src/keri/app/organizing.py:BaseOrganizer.list"]}
{"id": "C190", "title": "Contacts are found by what they have", "statement": "findExact gives exactly the contacts that have the value in the field, each once, and values exactly the values that contacts have in the field, each once.", "quantifier": "all histories of calls, all fields and values", "why_tests_cant": "It is an invariant of every history of messages, of any length and in any order; tests replay a handful of histories.", "anchors": ["src/keri/app/organizing.py:BaseOrganizer.findExact", "src/keri/app/organizing.py:BaseOrganizer.values"]}
{"id": "C191", "title": "Contacts that were altered in the database are not believed", "statement": "Whatever is changed in the database, what is read of a contact was signed by this controller for that contact, and last.", "quantifier": "all alterations that forge no signature, all histories of calls between them", "why_tests_cant": "It is an invariant of every history of messages, of any length and in any order; tests replay a handful of histories.", "anchors": ["src/keri/app/organizing.py:BaseOrganizer.get", "src/keri/app/organizing.py:BaseOrganizer.list"]}
{"id": "C192", "title": "A crash while a contact is changed loses nothing", "statement": "Cut short at any write, a call leaves other contacts as they are and its own one as it was or as it would be.", "quantifier": "all states, all calls, all points of interruption", "why_tests_cant": "It is an invariant of every history of messages, of any length and in any order; tests replay a handful of histories.", "anchors": ["src/keri/app/organizing.py:BaseOrganizer.update", "src/keri/app/organizing.py:BaseOrganizer.replace", "src/keri/app/organizing.py:BaseOrganizer.rem"]}
{"id": "C193", "title": "An image is read back as it was set", "statement": "After an image is set, it is got in its chunks with its type and length, whatever image was there before, and the images of other identifiers are unchanged.", "quantifier": "all databases, identifiers and streams", "why_tests_cant": "The input space is infinite; a test fixes finitely many inputs and says nothing about the others.", "anchors": ["src/keri/app/organizing.py:BaseOrganizer.setImg", "src/keri/app/organizing.py:BaseOrganizer.getImg", "src/keri/app/organizing.py:BaseOrganizer.getImgData"]}
{"id": "C194", "title": "Duplicity is reported if and only if watchers show it", "statement": "An adjudication gives at most one cue; it reports duplicity exactly if a watcher contradicts the local key state or watchers contradict each other, naming watchers that said so.", "quantifier": "all key state notices of all watchers, all thresholds and orders of watchers", "why_tests_cant": "The input space is infinite; a test fixes finitely many inputs and says nothing about the others.", "anchors": ["src/keri/app/watching.py:Adjudicator.adjudicate", "src/keri/app/watching.py:diffState", "src/keri/app/watching.py:Adjudicator.performAdjudications"]}
{"id": "C195", "title": "An update is recommended only by a threshold of agreeing watchers", "statement": "An update is recommended only if as many different watchers as the threshold are ahead with one digest and none says otherwise; watchers are reported as lagging, or all as consistent, exactly if they are.", "quantifier": "all key state notices of all watchers, all thresholds and orders of watchers", "why_tests_cant": "The input space is infinite; a test fixes finitely many inputs and says nothing about the others.", "anchors": ["src/keri/app/watching.py:Adjudicator.adjudicate"]}
{"id": "C196", "title": "Honest watchers cause no alarm", "statement": "If everything that watchers said is of the one log of the identifier, no duplicity is reported, wherever in the log they are.", "quantifier": "all logs, all positions of watchers", "why_tests_cant": "The input space is infinite; a test fixes finitely many inputs and says nothing about the others.", "anchors": ["src/keri/app/watching.py:Adjudicator.adjudicate"]}
{"id": "C197", "title": "A Signature header is read back as it was written", "statement": "The header made of any signages, read back, gives every signature of every signage under its tag, in order, with its indexing, signer, ordinal and digest.", "quantifier": "all lists of signages, all texts of tags, signers, ordinals and digests", "why_tests_cant": "The input space is infinite; a test fixes finitely many inputs and says nothing about the others.", "anchors": ["src/keri/end/ending.py:signature", "src/keri/end/ending.py:designature"]}
{"id": "C198", "title": "Signature headers can be merged", "statement": "A header merged of two by a comma reads as the one followed by the other, spaces mean nothing, and there is one signage per value.", "quantifier": "all texts of headers", "why_tests_cant": "The input space is infinite; a test fixes finitely many inputs and says nothing about the others.", "anchors": ["src/keri/end/ending.py:designature"]}
{"id": "C199", "title": "A request is let through only when its controller signed it", "statement": "The validation of signed requests lets a request through if and only if the known controller's keys have signed its body; every other request is refused, and no request raises.", "quantifier": "all headers, bodies, controllers and keys", "why_tests_cant": "The input space is infinite; a test fixes finitely many inputs and says nothing about the others.", "anchors": ["src/keri/app/httping.py:SignatureValidationComponent.process_request", "src/keri/app/httping.py:SignatureValidationComponent.validate"]}
{"id": "C200", "title": "A stream of messages is posted as requests without loss", "statement": "Posted as requests, a stream of messages gives one request for each message with its own attachments, in order; nothing of the stream is lost, added or moved.", "quantifier": "all streams, all sizes and kinds of messages and attachments", "why_tests_cant": "The input space is infinite; a test fixes finitely many inputs and says nothing about the others.", "anchors": ["src/keri/app/httping.py:streamCESRRequests"]}
{"id": "C201", "title": "Nothing that a request signature covers can be changed", "statement": "Two requests with the same signed text agree in the names and values of all fields covered and in the parameters; every field that was asked for is covered.", "quantifier": "all requests, fields and parameters", "why_tests_cant": "The input space is infinite; a test fixes finitely many inputs and says nothing about the others.", "anchors": ["src/keri/end/ending.py:siginput"]}
{"id": "C202", "title": "Introductions are served only of identifiers the host answers for", "statement": "A request for an introduction is answered with messages only of an identifier that is known and fully witnessed, with its delegator known, and that is an own one or has an own witness; otherwise the answer is an error that says which.", "quantifier": "all identifiers, states of the host, roles and participants", "why_tests_cant": "The input space is infinite; a test fixes finitely many inputs and says nothing about the others.", "anchors": ["src/keri/end/ending.py:OOBIEnd.on_get"]}
{"id": "C203", "title": "Notices are kept until they are removed", "statement": "After any history of adding, marking and removing notices, reading them gives exactly those added and not removed, in the order of time, marked as they were marked; their number is the count reported; each call tells whether there was something to do.", "quantifier": "all histories of calls, all points of interruption", "why_tests_cant": "It is an invariant of every history of messages, of any length and in any order; tests replay a handful of histories.", "anchors": ["src/keri/app/notifying.py:Notifier.add", "src/keri/app/notifying.py:Notifier.rem", "src/keri/app/notifying.py:Notifier.mar", "src/keri/app/notifying.py:Notifier.getNotes", "src/keri/app/notifying.py:Notifier.getNoteCnt"]}
{"id": "C204", "title": "Notices that were altered in the database are not believed", "statement": "Whatever the database holds, a notice is read, marked or removed only if it carries the controller's signature of what it says; otherwise the call fails.", "quantifier": "all contents of the database", "why_tests_cant": "The input space is infinite; a test fixes finitely many inputs and says nothing about the others.", "anchors": ["src/keri/app/notifying.py:Notifier.getNotes", "src/keri/app/notifying.py:Notifier.mar", "src/keri/app/notifying.py:Notifier.rem"]}
{"id": "C205", "title": "Notices are read in pages without gaps", "statement": "Reading from start to end gives the notices in that range; pages one after the other give all notices, each once.", "quantifier": "all histories of calls, all ranges and sizes of pages", "why_tests_cant": "It is an invariant of every history of messages, of any length and in any order; tests replay a handful of histories.", "anchors": ["src/keri/app/notifying.py:Noter.getNotes"]}
{"id": "C206", "title": "Every signal is delivered once, unless a newer one takes its place", "statement": "Of the signals pushed since the last delivery, the next one sends exactly those without a collapse key and the last of each collapse key, in order, and leaves nothing queued.", "quantifier": "all sequences of signals", "why_tests_cant": "It is an invariant of every history of messages, of any length and in any order; tests replay a handful of histories.", "anchors": ["src/keri/app/signaling.py:Signaler.push", "src/keri/app/signaling.py:SignalIterable.__next__"]}
{"id": "C207", "title": "Signals expire when they are old, and only then", "statement": "However pushes, deliveries and the expiry interleave, signals older than the timeout are taken out of the queue in the next round of the expiry, and it takes out no others.", "quantifier": "all interleavings of pushes, deliveries and steps of the expiry, all times", "why_tests_cant": "It is an invariant of every history of messages, of any length and in any order; tests replay a handful of histories.", "anchors": ["src/keri/app/signaling.py:Signaler.expireDo"]}
{"id": "C208", "title": "Witnesses get each other's receipts", "statement": "However witnesses answer, when the gathering of receipts ends its result is exactly the witnesses that answered with success, and each of these has been posted the event and the receipts of all other witnesses that are stored; witnesses that the event adds are first brought up to date.", "quantifier": "all answers of all witnesses, all kinds of events and stored receipts", "why_tests_cant": "The input space is infinite; a test fixes finitely many inputs and says nothing about the others.", "anchors": ["src/keri/app/agenting.py:Receiptor.receipt", "src/keri/app/agenting.py:Receiptor.catchup"]}
{"id": "C209", "title": "Witnesses are sent the receipts of the others, whatever the order of answers", "statement": "When all receipts of an event are there, each witness is sent exactly those of the other witnesses, in whatever order they came.", "quantifier": "all orders in which receipts are stored, all witnesses", "why_tests_cant": "The input space is infinite; a test fixes finitely many inputs and says nothing about the others.", "anchors": ["src/keri/app/agenting.py:WitnessReceiptor.receiptDo"]}
{"id": "C210", "title": "A messenger is idle only when all it was given is sent", "statement": "However giving, sending and answering interleave, a messenger is idle if and only if all messages that it was given have been sent and all requests answered.", "quantifier": "all interleavings of giving, sending and answering", "why_tests_cant": "It is an invariant of every history of messages, of any length and in any order; tests replay a handful of histories.", "anchors": ["src/keri/app/agenting.py:HTTPMessenger.idle", "src/keri/app/agenting.py:TCPMessenger.idle"]}
{"id": "C211", "title": "A publisher reports what it sent, and is idle when it has sent all", "statement": "Events of own identifiers are reported as sent in the order given, each once, and the publisher is idle if and only if it has nothing left to do.", "quantifier": "all sequences of events and interleavings with the sending", "why_tests_cant": "It is an invariant of every history of messages, of any length and in any order; tests replay a handful of histories.", "anchors": ["src/keri/app/agenting.py:WitnessPublisher.sendDo", "src/keri/app/agenting.py:WitnessPublisher.idle", "src/keri/app/agenting.py:WitnessPublisher.sent"]}
{"id": "C212", "title": "A query ends when the local log has what was asked for", "statement": "A query for a log, a number or a seal is sent, and ends exactly when the local log has it; a noticer of key states takes its own cues only.", "quantifier": "all numbers, seals, local logs and queues of cues", "why_tests_cant": "The input space is infinite; a test fixes finitely many inputs and says nothing about the others.", "anchors": ["src/keri/app/querying.py:LogQuerier.recur", "src/keri/app/querying.py:SeqNoQuerier.recur", "src/keri/app/querying.py:AnchorQuerier.recur", "src/keri/app/querying.py:KeyStateNoticer.recur"]}
{"id": "C213", "title": "Endpoints found are those last authorised and last located", "statement": "Whatever replies on roles and locations were accepted, what is found for an identifier, role and scheme is exactly the endpoints that the last reply for the role allows (and its witnesses, if these are asked for), with the URLs that the last reply for each scheme gives.", "quantifier": "all histories of replies, all identifiers, roles, schemes and filters", "why_tests_cant": "It is an invariant of every history of messages, of any length and in any order; tests replay a handful of histories.", "anchors": ["src/keri/app/habbing.py:BaseHab.fetchUrls", "src/keri/app/habbing.py:BaseHab.fetchRoleUrls", "src/keri/app/habbing.py:BaseHab.fetchEndAuthzed", "src/keri/core/eventing.py:Kevery.updateEnd", "src/keri/core/eventing.py:Kevery.updateLoc"]}
{"id": "C214", "title": "The endpoints that messages are sent to are authorised", "statement": "Whatever replies were accepted, the endpoints used to send messages to an identifier are those that its last replies authorise, and the witnesses of its key state.", "quantifier": "all histories of replies, all identifiers and roles", "why_tests_cant": "It is an invariant of every history of messages, of any length and in any order; tests replay a handful of histories.", "anchors": ["src/keri/app/habbing.py:BaseHab.endsFor"]}
{"id": "C215", "title": "What is told of the endpoints of an identifier is its own log, authorisations and locations", "statement": "Asked for an identifier, a role and endpoints, a habitat tells the log of that identifier first, then exactly the authorisations that this identifier gave last and the locations of those endpoints, and of witnesses if these are asked for.", "quantifier": "all histories of replies, all identifiers, roles and filters", "why_tests_cant": "It is an invariant of every history of messages, of any length and in any order; tests replay a handful of histories.", "anchors": ["src/keri/app/habbing.py:BaseHab.replyEndRole", "src/keri/app/habbing.py:BaseHab.loadEndRole", "src/keri/app/habbing.py:BaseHab.loadLocScheme", "src/keri/app/habbing.py:BaseHab.replyToOobi"]}
{"id": "C216", "title": "A habitat with keys held elsewhere tells the same", "statement": "Asked for the endpoints of an identifier, a habitat whose keys are held elsewhere tells the same authorisations as one whose keys are here.", "quantifier": "all histories of replies, all identifiers, roles and filters", "why_tests_cant": "It is an invariant of every history of messages, of any length and in any order; tests replay a handful of histories.", "anchors": ["src/keri/app/habbing.py:SignifyHab.replyEndRole"]}
{"id": "C217", "title": "A message is sent to all controllers and agents and to one mailbox", "statement": "A delivery that ends without an exception has sent the message with its attachment to all controllers and agents of the recipient and to one of its mailboxes, or to one witness if it has none of these; all that have a URL can be sent to, and every message can be.", "quantifier": "all endpoints, messages and random choices", "why_tests_cant": "The input space is infinite; a test fixes finitely many inputs and says nothing about the others.", "anchors": ["src/keri/app/forwarding.py:Poster.deliverDo", "src/keri/app/forwarding.py:Poster.sendDirect", "src/keri/app/forwarding.py:Poster.forward", "src/keri/app/forwarding.py:Poster.forwardToWitness"]}
{"id": "C218", "title": "All messages queued are served, and reported if delivered", "statement": "Messages queued are served in order, each for itself; those delivered are reported and no others, and waiting for the report of one leaves the reports of others.", "quantifier": "all queues of messages, all endpoints", "why_tests_cant": "It is an invariant of every history of messages, of any length and in any order; tests replay a handful of histories.", "anchors": ["src/keri/app/forwarding.py:Poster.deliverDo", "src/keri/app/forwarding.py:Poster.sent", "src/keri/app/forwarding.py:Poster.sendEventToDelegator"]}
{"id": "C219", "title": "A stream of messages reaches the recipient whole and once", "statement": "All messages given for a stream are sent to the recipient in order and once, in chunks of bounded size, and the sending ends.", "quantifier": "all sequences of messages, all endpoints and modes", "why_tests_cant": "It is an invariant of every history of messages, of any length and in any order; tests replay a handful of histories.", "anchors": ["src/keri/app/forwarding.py:StreamPoster.deliver", "src/keri/app/forwarding.py:StreamPoster.send", "src/keri/app/forwarding.py:StreamPoster.createForward", "src/keri/app/forwarding.py:StreamPoster.forward"]}
{"id": "C220", "title": "A sender introduces itself to those who may not know it, and to no others", "statement": "Before a forwarded message the log of the sender is sent if and only if the relay is not its witness and no receipt of the relay for its last event is stored.", "quantifier": "all relays and stored receipts", "why_tests_cant": "The input space is infinite; a test fixes finitely many inputs and says nothing about the others.", "anchors": ["src/keri/app/forwarding.py:introduce"]}
{"id": "C221", "title": "Taking an annotation apart gives back the stream that was annotated", "statement": "For every key event message in native text form, annotating succeeds and removing the annotation gives the same bytes; for every stream that can be annotated, removing the annotation gives the same bytes.", "quantifier": "all native key event messages; all streams", "why_tests_cant": "The input space is infinite; a test fixes finitely many inputs and says nothing about the others.", "anchors": ["src/keri/core/annotating.py:annot", "src/keri/core/annotating.py:denot"]}
{"id": "C222", "title": "Annotating ends", "statement": "Annotating a stream ends, with a text or an exception, whatever the stream.", "quantifier": "all streams, all numbers of turns of the loop", "why_tests_cant": "The input space is infinite; a test fixes finitely many inputs and says nothing about the others.", "anchors": ["src/keri/core/annotating.py:annot", "src/keri/kering.py:sniff"]}
{"id": "C223", "title": "What is annotated is one key event message and nothing else", "statement": "A stream is annotated only if it is one message of the types of key events; what follows a message, and messages of other types, are refused with an exception.", "quantifier": "all streams", "why_tests_cant": "The input space is infinite; a test fixes finitely many inputs and says nothing about the others.", "anchors": ["src/keri/core/annotating.py:annot"]}
{"id": "C224", "title": "Registries are found by their names", "statement": "A registry made under a name is found by that name from then on, whatever else is made and through restarts; under a name never used nothing is found.", "quantifier": "all histories of calls, deliveries and restarts; all names", "why_tests_cant": "It is an invariant of every history of messages, of any length and in any order; tests replay a handful of histories.", "anchors": ["src/keri/vdr/credentialing.py:Regery", "src/keri/vdr/credentialing.py:Registry.make", "src/keri/vdr/credentialing.py:SignifyRegistry.make"]}
{"id": "C225", "title": "Issuances and revocations of a registry take effect once sealed", "statement": "Asked to issue a credential not issued, or to revoke one that is issued and not revoked, a registry without backers makes the next event of the credential's log; no log changes before the controller has sealed the event, and once it has the event is in the log. A credential is not issued twice and not revoked unissued.", "quantifier": "all histories, all credentials and registries", "why_tests_cant": "It is an invariant of every history of messages, of any length and in any order; tests replay a handful of histories.", "anchors": ["src/keri/vdr/credentialing.py:Registry.issue", "src/keri/vdr/credentialing.py:Registry.revoke", "src/keri/vdr/credentialing.py:BaseRegistry.processEvent", "src/keri/vdr/credentialing.py:BaseRegistry.anchorMsg"]}
{"id": "C226", "title": "What a registry with backers makes is never refused for what it says", "statement": "Asked to rotate, a registry with backers raises and changes nothing, or makes the event that follows its last one, with the backers cut and added as asked and a threshold within their number; it is accepted once sealed. Its issuances refer to its last event.", "quantifier": "all histories, all lists of backers cut and added, all thresholds", "why_tests_cant": "It is an invariant of every history of messages, of any length and in any order; tests replay a handful of histories.", "anchors": ["src/keri/vdr/credentialing.py:Registry.rotate", "src/keri/vdr/credentialing.py:Registry.issue", "src/keri/vdr/eventing.py:rotate", "src/keri/vdr/eventing.py:backerIssue"]}
{"id": "C227", "title": "Registries whose keys are elsewhere issue, rotate and revoke like others", "statement": "A registry of an identifier whose keys are elsewhere makes the same issuances and revocations as one whose keys are here, and takes rotations that follow its last event.", "quantifier": "all states, all events given", "why_tests_cant": "The input space is infinite; a test fixes finitely many inputs and says nothing about the others.", "anchors": ["src/keri/vdr/credentialing.py:SignifyRegistry"]}
{"id": "C228", "title": "Notices of transaction state come from those entitled", "statement": "A notice of the state of a registry or a credential is saved only if its source signed it, is the controller of the registry, one of its backers (witnesses if it has none) or an own watcher, and the event it names is in the own log.", "quantifier": "all histories of notices, signatures and states of knowledge, all sources", "why_tests_cant": "It is an invariant of every history of messages, of any length and in any order; tests replay a handful of histories.", "anchors": ["src/keri/vdr/eventing.py:Tevery.processReplyRegistryTxnState", "src/keri/vdr/eventing.py:Tevery.processReplyCredentialTxnState", "src/keri/db/escrowing.py:Broker.updateReply"]}
{"id": "C229", "title": "Saved transaction state does not go back", "statement": "What is saved of a source about a registry or credential is never replaced with an older state from the same source, and notices of one source leave those of others.", "quantifier": "all states, all notices", "why_tests_cant": "It is an invariant of every history of messages, of any length and in any order; tests replay a handful of histories.", "anchors": ["src/keri/vdr/eventing.py:Tevery.processReplyCredentialTxnState", "src/keri/db/escrowing.py:Broker.current", "src/keri/db/escrowing.py:Broker.updateReply"]}
{"id": "C230", "title": "Notices of transaction state that wait are taken when all is there", "statement": "A notice that waits for key state, registry or event is saved in the first look at the escrows at which all is there; after a look each one that waits still lacks what it waits for, and only saved ones are told as saved.", "quantifier": "all histories of notices and looks, all states of knowledge", "why_tests_cant": "It is an invariant of every history of messages, of any length and in any order; tests replay a handful of histories.", "anchors": ["src/keri/db/escrowing.py:Broker.processEscrowState", "src/keri/db/escrowing.py:Broker.escrowStateNotice", "src/keri/vdr/eventing.py:Tevery.processEscrows"]}
{"id": "C231", "title": "What notices of transaction state wait for is asked for", "statement": "A notice that waits makes a request, once, for what it waits for: the key state of the controller, the registry or the event.", "quantifier": "all states, all notices", "why_tests_cant": "The input space is infinite; a test fixes finitely many inputs and says nothing about the others.", "anchors": ["src/keri/vdr/eventing.py:Tevery.processReplyRegistryTxnState", "src/keri/vdr/eventing.py:Tevery.processReplyCredentialTxnState"]}
{"id": "C232", "title": "Transaction event logs can be had from another node", "statement": "The answer to a query for a registry and a credential is exactly their logs in order with the seals and signatures stored; a node that has the controller's key events and processes the answer has the same logs and reports the same state of the credential.", "quantifier": "all reached states of the sender, all registries and credentials, all receivers with the key events", "why_tests_cant": "It is an invariant of every history of messages, of any length and in any order; tests replay a handful of histories.", "anchors": ["src/keri/vdr/eventing.py:Tevery.processQuery", "src/keri/vdr/eventing.py:Reger.clonePreIter", "src/keri/vdr/eventing.py:Reger.cloneTvt"]}
{"id": "C233", "title": "Queries for transaction state are replied", "statement": "A query for the state of a registry that is known is replied with its state, and one that names a credential also with the credential's state.", "quantifier": "all reached states, all queries on the route", "why_tests_cant": "It is an invariant of every history of messages, of any length and in any order; tests replay a handful of histories.", "anchors": ["src/keri/vdr/eventing.py:Tevery.processQuery", "src/keri/vdr/eventing.py:Tever.state", "src/keri/vdr/eventing.py:Tever.vcState"]}
{"id": "C234", "title": "The database in browsers answers as the one on disk", "statement": "The same calls for single and for numbered values, made one after the other on the in-memory database for browsers and on the one on disk, get the same answers.", "quantifier": "all sequences of calls", "why_tests_cant": "It is an invariant of every history of messages, of any length and in any order; tests replay a handful of histories.", "anchors": ["src/keri/db/webdbing.py:WebDBer.putVal", "src/keri/db/webdbing.py:WebDBer.appendOnVal", "src/keri/db/webdbing.py:WebDBer.remOnAll", "src/keri/db/webdbing.py:WebDBer.remTop", "src/keri/db/dbing.py:LMDBer"]}
{"id": "C235", "title": "What is flushed is there when the database in browsers is opened again", "statement": "After a flush, opening the same stores again gives the entries and flags they had; changes are kept by the next flush, also those made while an earlier one was under way; closing with clear leaves nothing.", "quantifier": "all histories of calls and flushes, with other calls at every point of a flush", "why_tests_cant": "It is an invariant of every history of messages, of any length and in any order; tests replay a handful of histories.", "anchors": ["src/keri/db/webdbing.py:WebDBer.open", "src/keri/db/webdbing.py:WebDBer.flush", "src/keri/db/webdbing.py:WebDBer.close", "src/keri/db/webdbing.py:WebEnv.open_db"]}
{"id": "C236", "title": "Sets in order of insertion in browsers are sets", "statement": "Putting, adding, pinning and removing values of sets in the database for browsers acts as on lists without repetition kept in order of insertion, one for each key; answers are those of the database on disk.", "quantifier": "all sequences of calls on all keys and values", "why_tests_cant": "It is an invariant of every history of messages, of any length and in any order; tests replay a handful of histories.", "anchors": ["src/keri/db/webdbing.py:WebDBer.putIoSetVals", "src/keri/db/webdbing.py:WebDBer.addIoSetVal", "src/keri/db/webdbing.py:WebDBer.pinIoSetVals", "src/keri/db/webdbing.py:WebDBer.remIoSetVal", "src/keri/db/webdbing.py:WebDBer.getIoSetLastItem"]}
{"id": "C237", "title": "Configurations that are put are got", "statement": "What is got from a configuration file is what was put into it last, also after it was closed and opened again; a put that raises or is interrupted leaves the configuration before it.", "quantifier": "all sequences of calls, all points at which a put can be interrupted, all codecs that read what they write", "why_tests_cant": "It is an invariant of every history of messages, of any length and in any order; tests replay a handful of histories.", "anchors": ["src/keri/app/configing.py:Configer.put", "src/keri/app/configing.py:Configer.get"]}
{"id": "C238", "title": "A schema is what its identifier says", "statement": "A schema that is loaded, made or resolved has as identifier the digest of its content with the identifier masked, so that two holders of an identifier have the same schema; this stays so when its kind is set.", "quantifier": "all bytes and dicts, all histories of additions to caches", "why_tests_cant": "It is an invariant of every history of messages, of any length and in any order; tests replay a handful of histories.", "anchors": ["src/keri/core/scheming.py:Schemer", "src/keri/core/scheming.py:JSONSchema.load", "src/keri/core/scheming.py:CacheResolver.add", "src/keri/core/scheming.py:CacheResolver.resolve", "src/keri/core/coring.py:Saider.verify"]}
{"id": "C239", "title": "Sets in browsers are kept", "statement": "Whatever is put, added, pinned, removed, appended or removed from a number on in sets of the database in browsers, plain ones or at numbered keys, is there when the database is opened again after a flush that ended, provided nothing was changed while the flush was under way; and where the database on disk appends a set, the one in browsers appends the same set at the same number.", "quantifier": "all histories of calls for sets, flushes, their ends and failures", "why_tests_cant": "It is an invariant of every history of messages, of any length and in any order; tests replay a handful of histories.", "anchors": ["src/keri/db/webdbing.py:WebDBer.appendOnIoSetVals", "src/keri/db/webdbing.py:WebDBer.remOnAllIoSet", "src/keri/db/webdbing.py:WebDBer.putIoSetVals", "src/keri/db/webdbing.py:WebDBer.pinIoSetVals", "src/keri/db/webdbing.py:WebDBer.addIoSetVal", "src/keri/db/webdbing.py:WebDBer.remIoSet", "src/keri/db/webdbing.py:WebDBer.remIoSetVal", "src/keri/db/webdbing.py:WebDBer.flush"]}
{"id": "C240", "title": "Removing sets from a number on removes just those", "statement": "Removing the sets of a key from a number on leaves its sets with lower numbers and all sets of other keys, in their order, removes the others, and answers whether there were any; the database in browsers does and answers the same.", "quantifier": "all sub-databases of sets at numbered keys, all keys and numbers", "why_tests_cant": "It is an invariant of every history of messages, of any length and in any order; tests replay a handful of histories.", "anchors": ["src/keri/db/dbing.py:LMDBer.remOnAllIoSet", "src/keri/db/webdbing.py:WebDBer.remOnAllIoSet"]}
{"id": "C241", "title": "Sets at numbered keys in browsers are counted and iterated backwards as they are forward", "statement": "Counting the values of a key from a number on gives the number of items that iterating forward yields with such numbers; iterating backwards from a number yields those up to it in the opposite order, the iteration of last values the last one of each number, both nothing for keys that are not there.", "quantifier": "all sub-databases of sets at numbered keys, all keys and numbers", "why_tests_cant": "It is an invariant of every history of messages, of any length and in any order; tests replay a handful of histories.", "anchors": ["src/keri/db/webdbing.py:WebDBer.cntOnAllIoSet", "src/keri/db/webdbing.py:WebDBer.getOnAllIoSetItemBackIter", "src/keri/db/webdbing.py:WebDBer.getOnAllIoSetLastItemBackIter", "src/keri/db/webdbing.py:WebDBer.getOnAllIoSetItemIter"]}
{"id": "C242", "title": "The last values of the sets of a key are those iterating all of them yields last", "statement": "Iterating the last values of the sets of a key from a number on yields, for every number from it on at which there is a set and in increasing order, the item that iterating all values yields last at that number; without a key, one such item for every key and number; the database on disk and the one in browsers yield the same.", "quantifier": "all sub-databases of sets at numbered keys, all keys, numbers and separators", "why_tests_cant": "It is an invariant of every history of messages, of any length and in any order; tests replay a handful of histories.", "anchors": ["src/keri/db/dbing.py:LMDBer.getOnAllIoSetLastItemIter", "src/keri/db/webdbing.py:WebDBer.getOnAllIoSetLastItemIter"]}
{"id": "C243", "title": "Iterating the last values of all sets yields the last value of each set once", "statement": "Iterating the last values of all sets, from the first key or from a given one on, yields one item for each key that has a set from there on, with the value added last; the database on disk and the one in browsers yield the same.", "quantifier": "all sub-databases of sets, all keys and separators", "why_tests_cant": "It is an invariant of every history of messages, of any length and in any order; tests replay a handful of histories.", "anchors": ["src/keri/db/dbing.py:LMDBer.getIoSetLastItemIterAll", "src/keri/db/webdbing.py:WebDBer.getIoSetLastItemIterAll"]}
{"id": "C244", "title": "The version of a database in browsers is the one set last, also after it is opened again", "statement": "Reading the version of a database in browsers gives the one set last; once the database is flushed, opening it again gives that version too.", "quantifier": "all histories of setting and reading the version, flushing with and without failure, and closing", "why_tests_cant": "It is an invariant of every history of messages, of any length and in any order; tests replay a handful of histories.", "anchors": ["src/keri/db/webdbing.py:WebDBer.version", "src/keri/db/webdbing.py:WebDBer.getVer", "src/keri/db/webdbing.py:WebDBer.setVer", "src/keri/db/webdbing.py:WebDBer.close"]}
