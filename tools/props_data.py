H = "src/keri/help/helping.py"
K = "src/keri/core/coring.py"
E = "src/keri/core/eventing.py"
D = "src/keri/db/dbing.py"
R = "src/keri/core/routing.py"

# ---------------------------------------------------------------- codec
p("C01", "Base64 integer encoding round trips",
  "For every natural number n and minimum width l, b64ToInt(intToB64(n, l)) = n whenever the text is nonempty; the text uses only the URL-safe Base64 alphabet, has at least l characters and is the shortest such text. Conversely intToB64(b64ToInt(s), len(s)) = s for every nonempty Base64 text s.",
  "all natural numbers n, all widths l, all Base64 texts s", INF,
  [H+":intToB64", H+":b64ToInt"])
p("C02", "Code conversion between text and binary domain is lossless",
  "For every Base64 text s, codeB2ToB64(codeB64ToB2(s), len(s)) = s, the binary form has ceil(3*len/4) bytes, and trailing bytes after the code never change the answer. nabSextets(b, l) returns exactly the first l sextets of b with the rest zeroed.",
  "all Base64 texts s, all byte strings b, all lengths l", INF,
  [H+":codeB64ToB2", H+":codeB2ToB64", H+":nabSextets"])
p("C03", "Primitive text form round trips",
  "For every primitive code and every (raw, soft) that Matter accepts, parsing the .qb64 text of the primitive yields the same code, soft and raw.",
  "all codes of the table, all raw byte strings and soft values of the right size", INF,
  [K+":Matter._infil", K+":Matter._exfil"])
p("C04", "Primitive binary form round trips",
  "For every primitive code and every (raw, soft) that Matter accepts, parsing the .qb2 bytes of the primitive yields the same code, soft and raw.",
  "all codes of the table, all raw byte strings and soft values of the right size", INF,
  [K+":Matter._binfil", K+":Matter._bexfil"])
p("C05", "Text and binary domains are aligned and composable",
  "The .qb2 form of a primitive is the Base64 decoding of its .qb64 form, both are a whole number of 24-bit groups, and converting a concatenation of primitives between domains is the concatenation of the converted primitives.",
  "all primitives and all finite sequences of primitives", INF,
  [K+":Matter._infil", K+":Matter._binfil"])
p("C06", "Primitives are self-framing in a stream",
  "Parsing a primitive at the front of a stream consumes exactly the characters (or bytes) of that primitive: whatever follows it does not change the parsed primitive nor its size, so a concatenation of primitives parses back to the same sequence.",
  "all primitives, all trailing stream contents, all sequences of primitives", INF,
  [K+":Matter._exfil", K+":Matter._bexfil", K+":Matter.fullSize"])
p("C07", "Truncated primitives are never misread",
  "Every proper prefix of a valid primitive is answered with an error asking for more material; it never parses as some other primitive.",
  "all primitives, all cut points, text and binary domain", INF,
  [K+":Matter._exfil", K+":Matter._bexfil"])
p("C08", "Primitive text is canonical",
  "Two texts that parse to the same primitive are the same text: no primitive has two accepted spellings (no malleability of keys, digests, signatures).",
  "all texts accepted by the parser", INF,
  [K+":Matter._exfil"])
p("C09", "Variable-size primitives pick the right size code",
  "For every raw byte string the variable-size code chosen has the right lead size (so that the whole is 24-bit aligned) and the right soft size, and raws beyond the large limit are refused rather than mis-sized.",
  "all raw lengths", INF,
  [K+":Matter.__init__"])

# ---------------------------------------------------------------- thresholds
p("C10", "Numeric signing threshold",
  "A numeric threshold M is satisfied by a set of signer positions exactly when M is positive and the set has at least M members; the zero threshold is satisfied by nothing.",
  "all M, N and all sets of positions", INF,
  [K+":Tholder._satisfy_numeric", K+":Tholder.satisfy"])
p("C11", "Weighted signing threshold",
  "A weighted threshold (a list of clauses of fractional weights, possibly nested) is satisfied by a set of signer positions exactly when in every clause the weights of the signed positions (nested groups counting when their own weights reach one) add up to at least one.",
  "all well-formed weighted thresholds, all sets of positions", INF,
  [K+":Tholder._satisfy_weighted", K+":Tholder._processWeighted"])
p("C12", "Threshold satisfaction is monotone",
  "Adding further signatures never turns a satisfied threshold into an unsatisfied one.",
  "all thresholds, all lists of positions, all extensions", INF,
  [K+":Tholder.satisfy"])
p("C13", "One key counts once",
  "Repeating signatures of the same key position never helps to satisfy a threshold: satisfaction depends only on the set of distinct positions.",
  "all thresholds, all lists of positions with repetitions", INF,
  [K+":Tholder._satisfy_numeric", K+":Tholder._satisfy_weighted", E+":verifySigs"])
p("C14", "Weighted threshold text form round trips",
  "Serialising a weighted threshold (.limen / .sith) and reading it back yields a threshold with the same clauses and hence the same satisfying sets.",
  "all well-formed weighted thresholds", INF,
  [K+":Tholder.limen", K+":Tholder.sith", K+":Tholder._processWeighted"])
p("C15", "Ample witness threshold is immune",
  "For every number n of witnesses the default threshold m = ample(n) satisfies m <= n, and for every fault bound f with n >= 3f+1 any two witness agreements of size m share an honest witness (2m > n + f) while n - f honest witnesses suffice to reach m.",
  "all witness pool sizes n and all fault bounds f", INF,
  [E+":ample"])

# ---------------------------------------------------------------- KEL
p("C16", "Accepted key event log is a digest-linked chain",
  "After any history of messages the current log of an identifier is a chain: events at sequence numbers 0..n, the first an inception, each later one naming the digest of the event before it.",
  "all histories of processed events (valid, invalid, duplicated, out of order, recovery)", HIST,
  [E+":Kever.update", E+":Kever.rotate", E+":Kevery.processEvent", E+":Kever.logEvent"])
p("C17", "First-seen log is append-only and gapless",
  "Processing a message never changes or removes an entry of the first-seen log; it appends at most one entry, at the next ordinal; ordinals are 0,1,2,... without gaps.",
  "all histories", HIST,
  [E+":Kever.logEvent", "src/keri/db/basing.py:Baser.fels"])
p("C18", "No event is first-seen twice",
  "In any history without delegation no event digest appears twice in the first-seen log of an identifier.",
  "all histories, including replays and recoveries", HIST,
  [E+":Kevery.processEvent", E+":Kever.rotate"])
p("C19", "No acceptance without the signing threshold",
  "Every event that enters the log carries signatures that verify under the keys authoritative for it and whose positions satisfy the signing threshold authoritative for it.",
  "all histories, all attached signature lists", HIST,
  [E+":Kever.valSigsWigsDel", E+":verifySigs"])
p("C20", "Pre-rotation commitment is enforced",
  "A rotation enters the log only if keys whose digests were committed by the preceding establishment event signed it and their committed positions satisfy the committed next threshold.",
  "all histories", HIST,
  [E+":Kever.exposeds", E+":Kever.valSigsWigsDel"])
p("C21", "No acceptance without the witness threshold",
  "An event that is not local, of an identifier that is neither own nor witnessed by the host, enters the log only with verified receipts of at least the witness threshold, from distinct witnesses of the witness list in force.",
  "all histories", HIST,
  [E+":Kever.valSigsWigsDel", E+":Kever.deriveBacks"])
p("C22", "Witness list algebra",
  "The witness list of an identifier has no duplicates at any time, and after an accepted rotation it equals (old minus cuts) followed by adds; inconsistent cuts or adds are refused.",
  "all histories, all cut and add lists", HIST,
  [E+":Kever.deriveBacks"])
p("C23", "Refused events change nothing in key state",
  "If processing an event ends in an error then key state, key event log and first-seen log of every identifier are exactly what they were before.",
  "all states, all events", HIST,
  [E+":Kever.update", E+":Kevery.processEvent"])
p("C24", "Recovery supersedes only interaction events",
  "A rotation that re-uses an already taken sequence number replaces only interaction events after the last establishment event; no establishment event of a non-delegated identifier is ever superseded.",
  "all histories", HIST,
  [E+":Kever.rotate", E+":Kevery.processEvent"])
p("C25", "Non-transferable and abandoned identifiers are frozen",
  "Once an identifier is non-transferable, or its last establishment event committed to no next keys, no further event ever enters its log.",
  "all continuations of the history", HIST,
  [E+":Kever.update", E+":Kever.transferable"])
p("C26", "Establishment-only configuration is honoured",
  "If the inception of an identifier sets the establishment-only trait then no interaction event ever enters its log.",
  "all histories", HIST,
  [E+":Kever.update", E+":Kever.config"])
p("C27", "Replays are idempotent",
  "Delivering an already accepted event again, with any signatures, leaves key state, key event log and first-seen log unchanged.",
  "all reachable states, all already accepted events", HIST,
  [E+":Kevery.processEvent"])
p("C28", "First seen wins and duplicity is recorded",
  "A different event at an already occupied sequence number that is not a valid recovery never displaces the accepted event; it is answered with a likely-duplicitous error and kept as evidence in the likely-duplicitous escrow.",
  "all histories", HIST,
  [E+":Kevery.processEvent", E+":Kevery.escrowLDEvent"])
p("C29", "Delegated events need the delegator's anchor",
  "A delegated establishment event (not local, not own, not witnessed by the host) enters the log only if an event first-seen in the delegator's log contains a seal with its identifier, sequence number and digest.",
  "all histories", HIST,
  [E+":Kever.validateDelegation"])
p("C30", "Remote messages cannot drive own identifiers",
  "An event for an identifier controlled, witnessed or delegated by the host enters the log only when it comes from a local (protected) source.",
  "all histories, all remote sources", HIST,
  [E+":Kever.valSigsWigsDel"])
p("C31", "Delivery order does not matter",
  "Delivering the events of a valid log in any order, followed by enough escrow passes, ends in the same key state and log as delivering them in sequence order.",
  "all permutations of every finite valid log", "There are factorially many delivery orders of logs of unbounded length.",
  [E+":Kevery.processEscrowOutOfOrders", E+":Kevery.escrowOOEvent"])
p("C32", "Crash between writes leaves a recoverable log",
  "After a crash between any two database writes performed while accepting an event, every event listed in the key event log has its body and signatures stored, and reprocessing the same event afterwards ends in the same log as without the crash.",
  "all crash points", "A crash can hit between any two of the separate database transactions.",
  [E+":Kever.logEvent", E+":Kever.update"])
p("C33", "Stored signatures of accepted events verify",
  "Every signature stored for an accepted event verifies under the key at its position.",
  "all histories", HIST,
  [E+":Kever.logEvent", E+":Kevery.escrowOOEvent"])
p("C34", "Receipts are stored only against the event they sign",
  "Every receipt signature stored for an event verifies over exactly that event, and receipts are accepted only for the last seen event at a sequence number.",
  "all receipts, all histories", HIST,
  [E+":Kevery.processReceipt"])
p("C35", "Establishment lookup returns the authority",
  "fetchEstEvent(pre, sn) returns the latest establishment event at or before sn in the log, for every sn in the log.",
  "all logs, all sequence numbers", HIST,
  [E+":Kevery.fetchEstEvent"])

# ---------------------------------------------------------------- DB
p("C36", "Ordinal keys sort numerically and split uniquely",
  "For ordinals below 16^32 byte order of onKey(top, n) agrees with numeric order of n, and splitting the key gives back top and n; the same for insertion-order suffixes.",
  "all top keys, all ordinals", INF,
  [D+":onKey", D+":splitOnKey", D+":suffix", D+":unsuffix"])
p("C37", "Insertion-ordered sets behave as ordered sets",
  "Under any sequence of put, add, pin, rem and get operations on any keys, the values read at a key are exactly those of an abstract insertion-ordered set without duplicates, and operations on one key never affect another key.",
  "all operation sequences on all keys", "Interference between keys in the shared sorted key space depends on all other keys present.",
  [D+":LMDBer.putIoSetVals", D+":LMDBer.addIoSetVal", D+":LMDBer.remIoSetVal", D+":LMDBer.getIoSetItemIter", D+":LMDBer.pinIoSetVals"])
p("C38", "Ordinal append is gapless and order preserving",
  "appendOnVal stores the value one past the last ordinal used under the key (0 if none) and changes nothing else, so reading all entries of a key returns the values in append order.",
  "all database contents, all keys", "Correctness depends on neighbouring keys in the sorted key space.",
  [D+":LMDBer.appendOnVal", D+":LMDBer.getOnAllItemIter"])
p("C39", "Insertion-ordered duplicates behave as ordered sets",
  "Under any sequence of put, add, delete and read operations the duplicates at a key are those of an insertion-ordered set without repetitions.",
  "all operation sequences", INF,
  [D+":LMDBer.putIoDupVals", D+":LMDBer.addIoDupVal", D+":LMDBer.delIoDupVal"])
p("C40", "Branch iteration returns exactly the branch",
  "Iterating over a top key returns, in key order, exactly the entries whose key starts with the top key, and removing a branch removes exactly those.",
  "all database contents and top keys", INF,
  [D+":LMDBer.getTopItemIter", D+":LMDBer.remTop", D+":LMDBer.cntTop"])
p("C41", "Backward iteration mirrors forward iteration",
  "Iterating a key backwards from an ordinal yields exactly the entries with ordinal at most that one, in reverse order, for every database content including empty ones and missing keys.",
  "all database contents, keys, ordinals", INF,
  [D+":LMDBer.getOnAllIoSetItemBackIter", D+":LMDBer.getOnAllIoSetLastItemBackIter"])

# ---------------------------------------------------------------- replies
p("C42", "Replies are accepted only from their authority",
  "A reply (endpoint role, location, key state notice) is accepted only with a verifying signature of the identifier that authorises it, under keys of an accepted establishment event meeting its threshold.",
  "all replies, all attachments, all database states", HIST,
  [R+":Revery.acceptReply"])
p("C43", "Best-available-data: accepted replies only move forward",
  "For one source and one piece of data the sequence of accepted replies is strictly increasing in (sequence number of signing establishment event, date-time) for transferable sources and in date-time for non-transferable ones; an older reply never replaces a newer one.",
  "all sequences of replies, including replays", HIST,
  [R+":Revery.acceptReply", R+":Revery.updateReply", R+":Revery.removeReply"])

# ---------------------------------------------------------------- text and number primitives
p("C44", "Base64 text primitive round trips",
  "Every Base64 text that fits can be carried by a Bexter and is read back unchanged from the object, its .qb64 and its .qb2 form, including texts starting with the pad character 'A' or the escape character '-'; other text is refused.",
  "all Base64 texts up to the size limit", INF,
  [K+":Bexter._rawify", K+":Bexter._derawify", K+":Bexter.bext"])
p("C45", "Number primitive round trips and is sized minimally",
  "Number(num=n) reads back as n from text and binary form; with an explicit code it is accepted exactly when n fits in the code, without one the smallest code of the automatic family is chosen, and numbers of 17 bytes or more are refused.",
  "all natural numbers, all number codes", INF,
  [K+":Number.__init__", K+":Number.num"])
p("C46", "Decimal text primitive round trips",
  "A decimal number given to Decimer reads back as the same decimal number text.",
  "all decimal number texts Python prints for int and float", INF,
  [K+":Decimer._rawify", K+":Decimer.dns"])
p("C47", "Date-time primitive round trips",
  "A date-time of the 32 character RFC-3339 profile given to Dater reads back as the same text, also after passing through its .qb64 form.",
  "all date-times of the profile", INF,
  [K+":Dater.__init__", K+":Dater.dts"])
p("C48", "Key state is that of the log",
  "The key state kept for an identifier is that of its last first-seen event and of the establishment event authoritative for it: sequence number, event type, keys, signing threshold, next-key commitments, next threshold and witness threshold are exactly the ones these two events state.",
  "all histories of deliveries, receipts and escrow passes", HIST,
  [E+":Kever", E+":Kevery.processEvent"])
p("C49", "A numeric threshold needs that many keys",
  "When the authoritative establishment event has numeric signing threshold m, an accepted event was signed by at least m different positions of its key list.",
  "all histories and all signature attachments", INF,
  [E+":verifySigs", E+":Kever.valSigsWigsDel", K+":Tholder._satisfy_numeric"])
p("C50", "Codes carry material of the documented size",
  "For every fixed size code of the code table, a primitive made with it carries exactly the number of bytes of material (and the characters of special value) documented for the code, and every fixed size code is documented.",
  "all codes of the table, all materials", INF,
  [K+":MatterCodex", K+":Matter.Sizes", K+":Matter.__init__"])
p("C51", "Properly signed events that continue the log are accepted",
  "An inception of a new identifier, an interaction on top of the log, or a rotation on top of the log or recovering from interactions is logged and becomes the tip of the key state whenever its fields are consistent, its verifying signatures meet the thresholds (whatever else is attached), its witness threshold is met or the host has a part in the identifier, and it comes from a local source or concerns an identifier in which the host has no part.",
  "all reachable nodes, all events of these kinds, all attachments", HIST,
  [E+":Kevery.processEvent", E+":Kever.update", E+":Kever.valSigsWigsDel"])
p("C52", "Single values behave as a map",
  "Under any sequence of put, set, get and remove operations on any non-empty keys every answer is the one of a partial map: put adds and never replaces, set replaces, remove removes, other keys are unaffected.",
  "all operation sequences", INF,
  [D+":LMDBer.putVal", D+":LMDBer.setVal", D+":LMDBer.getVal", D+":LMDBer.remVal"])

# ---------------------------------------------------------------- receipts
p("C53", "Receipts in an own name come from here",
  "A receipt in the name of an own identifier is stored only when it comes from a local source and receipts somebody else's event.",
  "all receipts and attachments, all histories", HIST,
  [E+":Kevery.processReceipt", E+":Kevery.processAttachedReceiptCouples", E+":Kevery.processAttachedReceiptSigGroups", E+":Kevery.processEscrowUnverNonTrans"])
p("C54", "Early receipts are kept and stored once the event is there",
  "A receipt that arrives before the event it receipts waits in escrow, is left there as long as neither the event nor its time-out has come, and is stored by the next escrow pass after the event has been accepted.",
  "all receipts, all orders of arrival", HIST,
  [E+":Kevery.processEscrowUnverNonTrans", E+":Kevery.processEscrowUnverTrans", E+":Kevery.processEscrowUnverWitness", E+":Kevery._processEscrowFindUnver"])

# ---------------------------------------------------------------- registries
T = "src/keri/vdr/eventing.py"
p("C55", "Registry and credential events are sealed by the registry's issuer",
  "Every event in a transaction event log names a registry whose inception event was sealed, in its accepted key event log, by the identifier that event names as issuer; and that identifier sealed the event itself in its accepted key event log. A registry has one issuer.",
  "all histories of key events, transaction events, escrow passes and restarts", HIST,
  [T+":Tevery.processEvent", T+":Tever.verifyAnchor", T+":Tever.valAnchorBigs", T+":Tever.logEvent"])
p("C56", "Revocation is permanent",
  "Transaction event logs are only extended at their end. Once a revocation is in the log of a credential, the credential is never again reported as issued or unknown, and reports state number, digest, source seal and kind of the last logged event.",
  "all histories, continued in all ways", HIST,
  [T+":Tever.vcState", T+":Tever.logEvent", T+":Tevery.processEvent"])
p("C57", "Only the issuer of its registry issues and revokes a credential",
  "All entries of the log of a credential are sealed by the identifier that controls the registry the credential was issued in.",
  "all histories, including events of other registries for the same credential", HIST,
  [T+":Tever.issue", T+":Tever.revoke", T+":Tevery.registryKey"])
p("C58", "Transaction event logs are gapless and linked",
  "Entry i of a log is an event with number i; exactly entry 0 is an inception or issuance; every later entry names the digest of the entry before it as its prior event; simple events are in logs of registries without backers only, the others in logs of registries with backers only.",
  "all histories", HIST,
  [T+":Tevery.processEvent", T+":Tever.rotate", T+":Tever.revoke", T+":Tever.issue"])
p("C59", "Registry state survives a restart",
  "A registry known before a restart is known after it with the same issuer, number, last event, threshold and backers.",
  "all histories with restarts anywhere", HIST,
  [T+":rbdict", T+":Tever.reload", T+":Tever.state", T+":Tever.update"])
p("C60", "Events that wait for their seal are accepted when it comes",
  "An event delivered before its issuer's seal waits, and is entered in its log by the next escrow pass after the seal is in the issuer's accepted key event log.",
  "all orders of arrival, whatever else waits", HIST,
  [T+":Tever.escrowALEvent", T+":Tevery.processEscrowAnchorless", T+":Tevery.processEscrowOutOfOrders"])
p("C61", "Backer thresholds are met",
  "An accepted event of a registry with backers, not the node's own, carries valid signatures of at least as many different backers as the threshold says that is in force in the registry.",
  "all events, attachments and registry states", HIST,
  [T+":Tever.valAnchorBigs", T+":Tever.getBackerState", T+":Tever.rotate"])
p("C62", "Own registries are written locally",
  "Outside lax mode no event from elsewhere is entered in the log of one of the node's own registries or of a credential issued in one, or changes the state of one.",
  "all histories of events from elsewhere", HIST,
  [T+":Tevery.processEvent"])
Y = "src/keri/vdr/verifying.py"
p("C63", "Credentials are accepted exactly when everything checks out",
  "A credential is accepted if and only if its registry is known, a transaction event log exists for it and is not too old, its schema is known and fits it, and every edge leads to an accepted credential with a current, unrevoked status, with the operators and the schema of the edge respected. What is accepted stays accepted; what is refused is not listed.",
  "all histories of key events, transaction events, schemas, credentials and escrow passes in any order", HIST,
  [Y+":Verifier.processCredential", Y+":Verifier.verifyChain", Y+":Verifier.saveCredential"])
p("C64", "Chains of credentials are complete and have no cycles",
  "Following edges from an accepted credential meets accepted credentials only and comes to an end.",
  "all histories, chains of any length", HIST,
  [Y+":Verifier.processCredential", Y+":Verifier.verifyChain"])
p("C65", "A credential was issued by the issuer it names",
  "The transaction events in the log of an accepted credential are sealed in the key event log of the identifier the credential names as its issuer.",
  "all histories, including credentials and registries made by others", HIST,
  [Y+":Verifier.processCredential", T+":Tever.vcState"])
p("C66", "Revoked credentials are not accepted",
  "Once a credential is revoked, neither it nor a credential with an edge to it is accepted any more.",
  "all histories, whatever arrives after the revocation", HIST,
  [Y+":Verifier.processCredential", Y+":Verifier.verifyChain"])
p("C67", "Waiting credentials are accepted once what they lack has come",
  "A credential that lacks its registry, schema or the far end of an edge waits and is never dropped before its time; the next escrow pass after all conditions are met accepts it.",
  "all orders of arrival, all interleavings with escrow passes, any number of waiting credentials", HIST,
  [Y+":Verifier.processEscrows", Y+":Verifier._processEscrow", Y+":Verifier.escrowMRE", Y+":Verifier.escrowMCE", Y+":Verifier.escrowMSE"])
p("C68", "Credential indices are exact",
  "The lists of credentials by issuer, by issuee and by schema contain exactly the accepted credentials with that issuer, issuee or schema, each once.",
  "all histories, including repeated deliveries", HIST,
  [Y+":Verifier.saveCredential", T+":Reger.logCred"])
p("C69", "The anchor of a credential is genuine",
  "The anchor stored with an accepted credential names an event that anchors it, and stays the same.",
  "all histories, including repeated deliveries with other anchors", HIST,
  [T+":Reger.logCred", T+":Reger.cloneCred", Y+":Verifier.saveCredential"])

# ---------------------------------------------------------------- key store
KS = "src/keri/app/keeping.py"
p("C70", "Rotations reveal exactly the keys committed to",
  "The public keys a rotation returns for an identifier are those whose digests the previous call for that identifier returned, in the same order.",
  "all histories of calls for any number of identifiers, restarts and interruptions", HIST,
  [KS+":Manager.incept", KS+":Manager.rotate", KS+":Manager.replay", KS+":Manager.move"])
p("C71", "Private keys in use are never lost",
  "The manager can sign with the current keys of every identifier, and can rotate every identifier whose next keys are not empty.",
  "all histories of calls for any number of identifiers, restarts, changes of the authentication identifier", HIST,
  [KS+":Manager.incept", KS+":Manager.rotate", KS+":Manager.sign", KS+":Manager.updateAeid"])
p("C72", "Keys are never used twice",
  "No two keys derived from the root salt for one identifier are equal, and no key belongs to two identifiers.",
  "all histories, all numbers of keys, identifiers and rotations", HIST,
  [KS+":SaltyCreator.create", KS+":Manager.incept", KS+":Manager.rotate"])
p("C73", "Replaced private keys are erased",
  "After a rotation with erasure the private keys before the previous ones are gone and no later call can sign with them.",
  "all histories of calls", HIST,
  [KS+":Manager.rotate", KS+":Manager.replay", KS+":Manager.sign"])
p("C74", "Secrets at rest are encrypted and open with the right seed only",
  "Once an authentication identifier is set, every private key and salt in the key store is encrypted for it; a manager opened with another seed is refused, and one opened with the right seed reads all of them.",
  "all histories of calls, restarts, changes of the authentication identifier", HIST,
  [KS+":Manager.setup", KS+":Manager.updateAeid", KS+":Manager.incept", KS+":Manager.ingest"])
p("C75", "Interrupted calls leave a usable key store",
  "If a call is interrupted at any point, after a restart every identifier can be used as before the call or as after it, and new ones can be made.",
  "all calls, all points of interruption", HIST,
  [KS+":Manager.incept", KS+":Manager.rotate", KS+":Manager.move", KS+":Manager.updateAeid"])
p("C76", "Signatures are made with the keys asked for and carry the indices asked for",
  "Signing returns one signature for each public key given, in order, made with its private key, with the given or default indices; it raises if a key is missing or an index is not a whole number.",
  "all lists of keys and indices, all key stores", INF,
  [KS+":Manager.sign"])
p("C77", "An ingested key sequence is replayed exactly",
  "After a key sequence was ingested, successive replays return its key sets in order, with the digests of the following set, then report the end and leave the key store unchanged.",
  "all key sequences, all starting positions", INF,
  [KS+":Manager.ingest", KS+":Manager.replay"])

# ---------------------------------------------------------------- signatures and counters
IX = "src/keri/core/indexing.py"
CT = "src/keri/core/counting.py"
SG = "src/keri/core/signing.py"
p("C78", "Indexed signatures round trip in text and binary",
  "Parsing the .qb64 text or the .qb2 bytes of any signature Siger accepts gives the same code, index, other index and signature bytes; the binary form is the Base64 decoding of the text form.",
  "all signature codes, indices, other indices and signature bytes", INF,
  [IX+":Indexer._infil", IX+":Indexer._exfil", IX+":Indexer._binfil", IX+":Indexer._bexfil"])
p("C79", "Indexed signatures are self-framing and truncation is noticed",
  "Whatever follows a signature in a stream changes neither what is read nor how much is consumed; a concatenation of signatures reads back as the same list; every proper front part of a signature, in text or bytes, asks for more.",
  "all signatures, all continuations of the stream, all cut points", INF,
  [IX+":Siger", IX+":Indexer._exfil", IX+":Indexer._bexfil"])
p("C80", "A signature carries the index asked for or is refused",
  "Siger accepts an index and other index exactly if they fit the code; a code for the current key list carries no other index; signing chooses a code that carries the given indices and refuses those beyond 4095.",
  "all suites, all integers as index and other index", INF,
  [IX+":Indexer.__init__", IX+":Siger", SG+":Signer._ed25519", SG+":Signer._secp256r1", SG+":Signer._secp256k1"])
p("C81", "Counters round trip, are self-framing and never misread",
  "Parsing the text or the bytes of any counter the constructor accepts gives the same code and count whatever follows; a counter has one text; every proper front part asks for more; a count that does not fit the short form of a code is carried by its long form, up to 64**5-1.",
  "all codes of both versions, all counts, all continuations and cut points", INF,
  [CT+":Counter.__init__", CT+":Counter._exfil", CT+":Counter._bexfil", CT+":Counter._infil", CT+":Counter._binfil"])
p("C82", "Groups give back their content",
  "The counter at the front of an enclosed group says exactly where its content ends, in text and in bytes, for groups nested to any depth; converting a group, or any stream of primitives, signatures and counters, between the domains is the same as converting its members.",
  "all contents, codes, nestings and streams", INF,
  [CT+":Counter.enclose", CT+":Counter.byteCount", CT+":Counter.fullSize"])
p("C83", "Version codes of streams are faithful",
  "The version counter carries every version with major up to 63 and minor up to 4095 and gives it back; other versions are refused and different versions have different codes.",
  "all integers as major and minor version", INF,
  [CT+":Counter.verToB64", CT+":Counter.b64ToVer", CT+":Counter.makeGVC"])

# ---------------------------------------------------------------- messages in streams
KG = "src/keri/kering.py"
PS = "src/keri/core/parsing.py"
p("C84", "Version strings are faithful",
  "Reading a version string written by versify gives back protocol, versions, serialization kind and size, whatever follows it; it is found at the front of a message behind at most eight bytes without capital letters; what is read is written again as the same characters; arguments that do not fit are refused.",
  "all protocols, versions, kinds and sizes; all bytes as version string; all messages", INF,
  [KG+":versify", KG+":deversify", KG+":rematch", KG+":smell"])
EV2 = "src/keri/core/eventing.py"
p("C85", "Built messages are read back",
  "The bytes messagize builds from a body, signatures, receipts, seals, bonds, nested messages and the other attachments are parsed to exactly one message with the same body, the same attachments in the same lists and order, and the same nested messages, whatever the layout asked for and whether the stream is framed or not.",
  "all arguments of messagize, both versions and both codings of the reader", INF,
  [EV2+":messagize", PS+":Parser.parse", PS+":Parser.msgParsator"])
p("C86", "Streams of messages are read back",
  "A stream of messages built one after the other, each in its own layout and version, is parsed to these messages, all of them, in order and nothing else.",
  "all series of messages", INF,
  [EV2+":messagize", PS+":Parser.parse", PS+":Parser.groupParsator"])
p("C87", "Messages do not depend on how the stream arrives",
  "However a stream is cut into pieces on its way, the messages that arrived completely are delivered, all of them, in order, and nothing is made of the beginning of the next.",
  "all series of messages and all ways to cut the stream", HIST,
  [PS+":Parser.parsator", PS+":Parser.groupParsator", PS+":Parser.msgParsator", PS+":Parser._extractor"])
p("C88", "Failures stay in their group",
  "Whatever is in a generic group, the messages before it and after it are delivered, all of them and in order, and parsing comes to an end.",
  "all series of messages and all contents of the group", INF,
  [PS+":Parser.groupParsator", PS+":Parser.parse"])
p("C89", "Text and binary are the same message",
  "A body with attachments in text or in binary, in an attachment group or one after the other, is the same message to the receiver.",
  "all bodies, all lists of attachments, both codings", INF,
  [PS+":Parser.msgParsator", PS+":Parser._extractor", CT+":Counter.enclose"])
p("C90", "Generic groups are transparent",
  "Messages that begin with a counter can be put in generic groups, these in generic groups again, to any depth and with or without a change of version at the front: all messages are delivered, in order, and after a group the version is that from before it.",
  "all nestings of groups and messages", INF,
  [PS+":Parser.groupParsator", CT+":Counter.enclose"])

# ---------------------------------------------------------------- replay protection
KR = "src/keri/core/kraming.py"
p("C91", "No message is handed on twice",
  "While replay protection is enabled for a message (no denial covers it), a query, reply or exchange message with a given sender and digest is handed on for processing at most once, however often and in whatever company it arrives, whatever is pruned in between and whenever the process is restarted.",
  "all histories of deliveries (with arbitrary key states and attachments), prunings and restarts with a clock that does not go back; all valid settings", HIST,
  [KR+":Kramer.intake", KR+":Kramer.kramit", KR+":Pruner"])
p("C92", "Only authentic messages are handed on",
  "A message that replay protection hands on is sealed in an event of its sender, or signed by the sender who is a key, or by the only current key of the sender, or by current keys of the sender that satisfy the signing threshold, with signatures that came with it now or earlier while the key state was the one it is now.",
  "all histories of deliveries, prunings, changes of settings and restarts", HIST,
  [KR+":Kramer.kramit", KR+":Kramer._verifyAttachedSigs", KR+":Kramer._validateSenderSeal"])
p("C93", "Only timely messages are handed on",
  "A message that replay protection hands on arrived, now or earlier, at a time that is not further from its time stamp than the settings in force for it allowed then.",
  "all histories of deliveries, prunings, changes of settings and restarts", HIST,
  [KR+":Kramer.kramit"])
p("C94", "Changes of settings keep the protection",
  "A change of the settings of replay protection at runtime, or a restart with other settings, never lets a message be handed on a second time, and messages are handled after it as before.",
  "all histories with changes of settings", HIST,
  [KR+":Kramer.changeConfig", KR+":Kramer.reconcileConfig"])
p("C95", "Changes of settings leave no hole",
  "After an accepted change of settings every message the old settings applied to has settings that apply to it; a change with a hole is refused and a refused change changes nothing.",
  "all settings before and after, all messages", INF,
  [KR+":Kramer.changeConfig", KR+":Kramer._validateCoverage", KR+":Kramer._fetchCacheType"])
p("C96", "Pruning keeps what is in its window and nothing else",
  "A round of pruning removes exactly the entries out of their windows from the caches; signatures that wait for others always belong to an entry in a cache and go with it.",
  "all histories", HIST,
  [KR+":Pruner._pruneMessages", KR+":Pruner._pruneExchanges"])
p("C97", "What the parser hands on is well formed",
  "Whatever bytes arrive, in one piece or many, every message the parser hands on was deserialized from exactly the bytes it announces, and each of its lists of attachments holds complete elements whose parts are primitives of the classes that belong there, with codes the class accepts and raw bytes as many as the code says; the same of nested messages.",
  "all streams of bytes, all ways to cut them, both versions, framed or not", INF,
  [PS+":Parser.parse", PS+":Parser.parsator", PS+":Parser.groupParsator", PS+":MsgParseDom"])
p("C98", "Changes of settings take effect",
  "A change of settings never makes the window of acceptance of a cache type wider at once; narrower windows and removals apply at once; once the widest of the new windows (or the waiting time ordered) has passed, the settings in force are the new ones and nothing waits; after a restart the configured settings are in force; invalid settings and waiting times are refused.",
  "all settings before and after, all times", HIST,
  [KR+":Kramer.changeConfig", KR+":Kramer.reconcileConfig", KR+":Kramer._populateCtyp"])
p("C99", "Authentic messages in time are handed on",
  "A message shown to be from its sender by what comes with it, which arrives for the first time and in time, is handed on at once, also at the beginning of an exchange and within one that has begun; a message of a sender with several keys is handed on once the signatures of all its deliveries satisfy the threshold; exempt messages are handed on unchanged.",
  "all histories before and between the deliveries", HIST,
  [KR+":Kramer.intake", KR+":Kramer.kramit", KR+":Pruner"])
p("C100", "Signatures handed on are good",
  "Of the signatures attached as the sender's, only those are handed on with a message that came with it, now or before, and are good for the current key state of the sender.",
  "all histories of deliveries, prunings, changes of settings and restarts", HIST,
  [KR+":Kramer._scrubFailedVerification", KR+":Kramer._scrubSameSenderPriorEventTsgs", KR+":Kramer._verifyAttachedSigs"])

EX="src/keri/peer/exchanging.py"
p("C101", "Peer to peer messages are from their sender",
  "Every peer to peer message that is saved came, and enough signatures that came with it satisfy the threshold of some event of its sender known at the time, made with the keys of that event; or its sender is a key and signed it.",
  "all histories of deliveries, with any attachments and any knowledge of key events, and of looks at messages that wait", HIST,
  [EX+":Exchanger.processEvent", EX+":Exchanger.processEscrowPartialSigned"])
p("C102", "Handlers get what is saved, and nothing else",
  "A handler is given a message only if it is from its sender, saved, of the route of the handler, and not refused by it, and no message is given to it twice.",
  "all histories, all handlers", HIST,
  [EX+":Exchanger.processEvent", "src/keri/vc/protocoling.py:IpexHandler", "src/keri/acdc/ipexing.py:IpexHandler"])
p("C103", "Conversations about credentials follow the protocol",
  "Every saved message of the issuance and presentation exchange is the last of a chain of saved messages, each the answer to the one before, whose verbs are apply, offer, agree, grant, admit in this order, beginning with apply, offer or grant, or end with a spurn of one that can be spurned.",
  "all histories of deliveries of any messages, both versions of the handler", HIST,
  ["src/keri/vc/protocoling.py:IpexHandler.verify", "src/keri/acdc/ipexing.py:IpexHandler.verify"])
p("C104", "One answer in a conversation",
  "Of the messages of the issuance and presentation exchange that answer the same message at most one is saved.",
  "all histories of deliveries of any messages, both versions of the handler", HIST,
  ["src/keri/vc/protocoling.py:IpexHandler.response", "src/keri/acdc/ipexing.py:IpexHandler.response"])
p("C105", "Signatures that come one by one add up",
  "If the signatures that came with deliveries of a peer to peer message together satisfy the threshold of its sender, the next look at the messages that wait saves it, if none of them has waited too long.",
  "all histories in which other messages come and go between", HIST,
  [EX+":Exchanger.escrowPSEvent", EX+":Exchanger.processEscrowPartialSigned"])
p("C106", "Peer to peer messages do not wait for ever",
  "After a look at the messages that wait, each that still does came no more than ten seconds before.",
  "all histories", HIST,
  [EX+":Exchanger.processEscrowPartialSigned"])
p("C107", "Sealed contents are those the message names",
  "A peer to peer message that names the digest of its contents is saved only if it came with contents of that digest.",
  "all histories", HIST,
  [EX+":Exchanger.processEvent"])
p("C108", "What is saved can be read again",
  "A peer to peer message that has been saved can be read again and its signatures verified, whatever comes later.",
  "all histories after it has been saved", HIST,
  [EX+":cloneMessage", EX+":verify", EX+":Exchanger.logEvent"])
MB="src/keri/app/storing.py"
IN="src/keri/app/indirecting.py"
p("C109", "A mailbox keeps messages in order",
  "Storing a message in a mailbox succeeds, and reading the mailbox yields exactly the messages that arrived for it, in the order of their arrival and numbered 0, 1, 2 and so on.",
  "all histories of arrivals for any mailboxes, with interruptions of the provider anywhere", HIST,
  [MB+":Mailboxer.storeMsg", MB+":Mailboxer.cloneTopicIter", MB+":Mailboxer.getTopicMsgs"])
p("C110", "Polling skips no message",
  "When a client has recorded a number for a topic, every message of the topic with that number or a smaller one has been handed on; and a client that asks anew and takes the answer has been handed every message stored for it.",
  "all histories of arrivals, connections made and lost, deaths of provider and client", HIST,
  [IN+":Poller.eventDo", IN+":MailboxIterable"])
p("C111", "Polled messages are handed on once and in order",
  "The messages of a topic handed on by a poller are the first so many that arrived, each once and in the order of their arrival, and the parser gets them in the order in which they were handed on.",
  "all histories of arrivals and of connections made and lost", HIST,
  [IN+":Poller.eventDo", IN+":MailboxIterable", IN+":MailboxDirector.pollDo"])
p("C112", "A mailbox is its owner's",
  "What a poller hands on arrived for the mailbox of its identifier and topic, a message forwarded to someone else or to another topic does not appear in it, and only the owner can read it.",
  "all histories, all receivers and topics of forwarded messages", HIST,
  ["src/keri/app/forwarding.py:ForwardHandler.handle", IN+":Poller.eventDo", "src/keri/core/eventing.py:Kevery.processQuery"])
p("C113", "Requests are answered with what they asked for",
  "A request for a mailbox gets the stream that its own query asked for and no other, no query is lost or answered twice, and every request whose query was accepted gets its stream.",
  "all orders in which queries arrive and requests are asked for data", HIST,
  [IN+":QryRpyMailboxIterable"])
p("C114", "What is nested is what is named",
  "A saved message of the issuance and presentation exchange came with exactly the messages that its attributes name nested in it.",
  "all histories of deliveries of any messages, second version of the handler", HIST,
  ["src/keri/acdc/ipexing.py:IpexHandler.verify", EX+":Exchanger.processEvent"])
p("C115", "Missing events are asked for once",
  "There are at most as many queries for missing key events as deliveries of peer to peer messages, however often the messages that wait are looked at.",
  "all histories", HIST,
  [EX+":Exchanger.escrowPSEvent", EX+":Exchanger.processEvent"])
MP="src/keri/core/mapping.py"
p("C116", "A field map is read as it was written",
  "Reading the native serialization of a field map yields the same map and leaves exactly what follows on the stream, in text and in binary; and no two maps are written alike.",
  "all maps of texts, numbers, booleans, nulls, lists and maps nested to any depth, all that follows on the stream", INF,
  [MP+":Mapper._exhale", MP+":Mapper._inhale", MP+":Mapper.qb2", "src/keri/core/coring.py:Labeler"])
p("C117", "A map made with SAIDs verifies",
  "A map made with SAIDs verifies, as a map and when received in its serialization; making its SAIDs again changes nothing, and making them changes no other field. Each SAID is a digest with the code of the value that was in its place.",
  "all maps, all sets of SAID fields, all kinds of serialization", INF,
  [MP+":Mapper.__init__", MP+":Mapper._exhale", "src/keri/core/coring.py:Diger"])
p("C118", "A SAID commits to the map",
  "Two maps that verify and have the same SAID are the same, or they are a collision of a digest function.",
  "all pairs of maps", INF,
  [MP+":Mapper.__init__", MP+":Mapper._exhale"])
p("C119", "Compaction ends in the most compact form",
  "Compacting a nested map ends, and what it leaves is the most compact form: every nested map with a SAID is replaced by the SAID of its own compact form, and the SAID of the whole is computed from that and verifies.",
  "all nested maps, all sets of SAID fields, all kinds of serialization", INF,
  [MP+":Compactor.compact", MP+":Compactor._trace"])
p("C120", "Partial disclosures compact alike",
  "However much of a nested map is disclosed and however much is hidden behind SAIDs, the compact form, and so the SAID, is the same.",
  "all nested maps, all choices of the nested maps that are hidden", INF,
  [MP+":Compactor.compact"])
p("C121", "What is disclosed is what was committed to",
  "Two disclosures whose compact forms have the same SAID agree in everything that both disclose, or a map in the one and a map in the other are a collision of a digest function.",
  "all pairs of nested maps, disclosed to any degree", INF,
  [MP+":Compactor.compact", MP+":Mapper.__init__"])
p("C122", "Every selective disclosure verifies",
  "Whichever elements of an aggregate are disclosed, the disclosure shows exactly those, has the SAIDs of the others and the same aggregate value, and verifies. Making the aggregate changes only SAIDs.",
  "all lists of elements, all choices of those disclosed, all kinds of serialization", INF,
  [MP+":Aggor.__init__", MP+":Aggor.disclose", MP+":Aggor.verifyDisclosure"])
p("C123", "An aggregate commits to its elements",
  "Two disclosures that verify with the same aggregate value have equally many elements, and at each place the same element or its SAID, or they are a collision of a digest function.",
  "all pairs of lists of elements, disclosed to any degree", INF,
  [MP+":Aggor.__init__", MP+":Aggor.verifyDisclosure"])
p("C124", "An aggregate is read as it was written",
  "The native serialization of a list of elements with its aggregate is read back as that list, verifies, and leaves exactly what follows on the stream.",
  "all lists of elements that verify, all that follows on the stream", INF,
  [MP+":Aggor._exhale", MP+":Aggor._inhale", MP+":Aggor.__init__"])
SD = "src/keri/core/serdering.py"
p("C125", "Every message that is made verifies",
  "A message made from any fields, of less than the size that a version string can state, verifies: its SAIDs are digests of its serialization with dummies in their place, its version string states its protocol, versions, kind and size, and the size is the number of its bytes. The fields that were given are in it unchanged, those that were missing have their defaults, and the codes of its SAIDs are those asked for.",
  "all maps of fields, all message types, versions and kinds", INF,
  [SD+":Serder.makify", SD+":Serder._verify"])
p("C126", "The SAID of a message commits to its fields",
  "Two messages that are accepted and have the same digest in a SAID field have the same fields but for the SAIDs, and the same SAIDs if these have the same codes, or the two are a collision of a digest function.",
  "all pairs of accepted messages of one protocol, version and kind", INF,
  [SD+":Serder._verify", SD+":Serder._validate", SD+":Serder._compute"])
p("C127", "Only messages with the fields of their type are accepted",
  "A message that is accepted, from bytes, from fields or made, is of a known type of its protocol and version; no required field is missing, the fields are in the order of the type, and there are no other fields unless the type allows them. KERI messages have exactly the fields of their type.",
  "all byte strings and all maps of fields", INF,
  [SD+":Serder._validate", SD+":SerderKERI._verify"])
p("C128", "An accepted key event has a right prefix",
  "In a KERI message that is accepted the prefix is a prefix; that of a delegated event is a digest; a public key that is the prefix of an inception is its only key, with threshold one; an event with a nontransferable prefix has no next keys, no witnesses and no anchors; the delegator is a prefix.",
  "all byte strings and all maps of fields", INF,
  [SD+":SerderKERI._verify"])
p("C129", "Messages are read as they were written",
  "The bytes of an accepted message are the serialization of its fields, its size is their number, and its version string and its SAIDs are right. A message is taken off the front of a stream and the rest is left, and a message that was made is read back as it was made.",
  "all accepted messages, all that follows on the stream", INF,
  [SD+":Serder.__init__", SD+":Serder._inhale", SD+":Serder._exhale"])
HA = "src/keri/app/habbing.py"
p("C130", "Key store and log agree on every identifier of the host",
  "Whatever calls are made, messages arrive and restarts happen: for each identifier of the host that has a key state, the current keys of the key store are those of the key state, the digests of its next keys are those committed to, and the private keys of all of them are stored.",
  "all histories of a host: calls making, rotating and interacting, other messages in between, restarts", HIST,
  [HA+":Habery.makeHab", HA+":Hab.incept", HA+":Hab.rotate", HA+":BaseHab.interact", KS+":Manager.rotate", E+":Kevery.processEvent"])
p("C131", "What a call reports is what happened",
  "When making, rotating or interacting returns a message, its event is the last of the log and of the key state of the identifier, and nothing else was logged; when it raises, the database and all key states are as before.",
  "all histories of a host, all calls with any arguments", HIST,
  [HA+":Hab.incept", HA+":Hab.rotate", HA+":BaseHab.rotate", HA+":BaseHab.interact"])
p("C132", "What can be built is taken",
  "A rotation succeeds exactly if its event can be built: one's own node takes everything the builders let pass. An interaction succeeds exactly if the identifier has a key state, was not abandoned and is not confined to establishment events. Making an identifier succeeds exactly if its event can be built, the name is free and the key store has no keys under the new identifier.",
  "all histories of a host, all arguments", HIST,
  [E+":incept", E+":rotate", E+":interact", HA+":Hab.rotate", HA+":Hab.incept", HA+":BaseHab.interact"])
p("C133", "An identifier can always be rotated",
  "A rotation without arguments succeeds whenever all next keys together satisfy the next threshold and no rotation was refused before: the next keys become current, as many new next keys are committed to, thresholds and witnesses stay.",
  "all histories of a host, all its identifiers", HIST,
  [HA+":Hab.rotate", HA+":BaseHab.rotate", E+":rotate"])
p("C134", "A refused rotation leaves the identifier as it was",
  "A rotation that raises leaves the node, the sequences of keys and all stored private keys as they were; only keys after the next ones may have been added. If such keys are there they become the next keys of the following rotation, however many are asked for.",
  "all histories of a host, all arguments", HIST,
  [HA+":Hab.rotate", KS+":Manager.rotate", KS+":Manager.replay"])
p("C135", "A rotation erases old keys only",
  "A rotation that succeeds erases the private keys that were in use before the last ones and no others: the keys that were current are still stored, and the next ones are current.",
  "all histories of a host, all arguments", HIST,
  [HA+":Hab.rotate"])
p("C136", "A rotation that is interrupted has happened or has not",
  "When the process stops in a rotation, key store and log agree after the restart, on the old keys or on the new ones, and the identifier can be rotated.",
  "all histories of a host, all points between the writes of a rotation", HIST,
  [HA+":Hab.rotate", KS+":Manager.rotate"])
GR = "src/keri/app/grouping.py"
DL = "src/keri/app/delegating.py"
p("C137", "A group event that is reported complete was started, logged and receipted",
  "When the Counselor reports an event of a group complete, the event was handed to it before and has been logged; all witnesses of the group had receipted it, or the own member has the first key and the delegation of the last event of the group was complete. What has been reported is reported ever after, with the same digest.",
  "all histories of calls, passes, receipts, changes of the node, exceptions, stops at any write and restarts", HIST,
  [GR+":Counselor.start", GR+":Counselor.complete", GR+":Counselor.processEscrows"])
p("C138", "A started group event waits or is complete",
  "A group event that was handed to the Counselor is in one of its escrows or has been reported complete, ever after.",
  "all histories of calls, passes, receipts, changes of the node, exceptions, stops at any write and restarts", HIST,
  [GR+":Counselor.start", GR+":Counselor.processPartialSignedEscrow", GR+":Counselor.processDelegateEscrow", GR+":Counselor.processPartialWitnessEscrow"])
p("C139", "A group event that has all it needs is completed",
  "A group event that waits, is logged with signatures, has its approval if it needs one and all its receipts is complete after the next pass of the Counselor, whatever restarts came before.",
  "all states, all histories", HIST,
  [GR+":Counselor.processEscrows", "src/keri/app/agenting.py:Receiptor"])
p("C140", "A delegated event that is reported complete was approved",
  "When the Anchorer reports a delegated event complete, the own node held a fully witnessed event of its delegator that seals it.",
  "all histories of calls, passes, receipts, changes of the node, exceptions, stops at any write and restarts", HIST,
  [DL+":Anchorer.delegation", DL+":Anchorer.complete", DL+":Anchorer.processEscrows"])
p("C141", "A delegated event whose delegation was asked for waits or is complete",
  "An event for which delegation was asked is in one of the escrows of the Anchorer or has been reported complete, ever after.",
  "all histories of calls, passes, receipts, changes of the node, exceptions, stops at any write and restarts", HIST,
  [DL+":Anchorer.delegation", DL+":Anchorer.processPartialWitnessEscrow", DL+":Anchorer.processUnanchoredEscrow", DL+":Anchorer.processWitnessPublication"])
p("C142", "An approved delegated event is completed",
  "A delegated event that waits for approval and is approved goes on to publication with the next pass of the Anchorer, and is complete when it has been published, whatever restarts came before.",
  "all states, all histories", HIST,
  [DL+":Anchorer.processUnanchoredEscrow", DL+":Anchorer.processWitnessPublication", DL+":Anchorer.publishDelegator"])
p("C143", "The place of approval entered for an event is where it was approved",
  "When Counselor or Anchorer enter the place of approval for a delegated event, the event of the delegator at that place seals that delegated event.",
  "all states, all points between the writes of a pass", HIST,
  [GR+":Counselor.processDelegateEscrow", DL+":Anchorer.processUnanchoredEscrow"])
p("C144", "Only approved content of group messages is processed as one's own",
  "What another member's message wraps is given to the own parser as local only if an own identifier has sent a message with the same proposal, and it is what was proposed.",
  "all sequences of messages of members and others, first and second version, own calls, stops at any write", HIST,
  [GR+":Multiplexor.validate", GR+":Multiplexor.add", GR+":Multiplexor._replayApproved", GR+":MultisigNotificationHandler"])
p("C145", "All copies of an approved proposal are processed, in whatever order they come",
  "Once an own identifier has made a proposal, everything that is kept of messages of others with that proposal has been given to the own parser, whether they came before or after.",
  "all sequences of messages of members and others, own calls, stops at any write", HIST,
  [GR+":Multiplexor.add", GR+":Multiplexor._replayApproved"])
p("C146", "The controller is told of proposals of groups of their own, and of all of them",
  "A notice is made only of messages of others which are about a group of an own identifier or invite one, and of each such message that is valid and whose proposal no own identifier has made yet.",
  "all sequences of messages of members and others, own calls, stops at any write", HIST,
  [GR+":Multiplexor.validate", GR+":Multiplexor.add"])
p("C147", "Messages sent reach the processor of their type, in order, with what was attached",
  "However a stream of messages is cut into pieces, each is handed to the processor of its type, with the body and the attachments it was built with, in the order sent; what becomes of one message has no effect on the next being handed over.",
  "all streams of built messages, all ways to cut them into pieces, all states and processors, whatever exceptions these raise", INF,
  [PS+":Parser.msgProcess", PS+":Parser.groupParsator", PS+":MsgParseDom", E+":Kevery.processMsg"])
p("C148", "No processor is called for a message without the signatures its type needs",
  "A processor is only called with the method for the type of the message, with that message and its own attachments, and only if the message carries the signatures needed for its type; whatever bytes arrive.",
  "all byte streams in all pieces, all bodies and attachments, all processors", INF,
  [PS+":Parser.msgProcess", E+":Kevery.processMsg"])
p("C149", "Messages of refused senders are not processed",
  "A query, reply or exchange message whose sender is on the deny list, or not on an allow list in force, reaches no processor and changes nothing.",
  "all messages, senders and lists", INF, [E+":Kevery.processMsg", PS+":Parser.msgProcess"])
p("C150", "Queries are handed over for every kind of requester",
  "A query that carries a signature group of a transferable requester, or couples of non-transferable requesters, is handed to the processor of its route.",
  "all queries, routes and attachments, both versions", INF, [PS+":Parser.msgProcess", E+":Kevery.processMsg"])
p("C151", "Receipts attached to key events are not lost",
  "A receipt attached to a key event is stored, or waits, with the event it is attached to, whether the event is accepted at once or has to wait.",
  "all messages with key events and attached receipts, all states of the node", HIST,
  [PS+":Parser.msgProcess", E+":Kevery.processAttachedReceiptCouples", E+":Kevery.processAttachedReceiptSigGroups"])
p("C152", "No stream of bytes brings a node into a state a sequence of signed messages could not",
  "Whatever bytes arrive and in whatever pieces, the key event logs and receipts of the node are those after a sequence of key events and receipts, each of which was read from the stream with the signatures attached to that message; in particular every event in a log was in the stream and is signed to the threshold in force.",
  "all byte streams in all pieces, all nodes", INF,
  [PS+":Parser.parsator", PS+":Parser.msgProcess", E+":Kevery.processEvent", E+":Kevery.processReceipt"])
CR = "src/keri/vdr/credentialing.py"
p("C153", "An event reported as complete is in its log, sealed and receipted",
  "When the Registrar reports an event of a registry or credential as complete, the event was asked for, its key event was receipted by as many witnesses as its controller has or completed by the group, the event is in its log, and the controller of the registry has sealed it. The same holds of whatever is handed on for sending.",
  "all histories of calls, passes, key events, registry events, receipts, restarts and stops at any write", HIST,
  [CR+":Registrar.complete", CR+":Registrar.processEscrows", CR+":Registrar.issue"])
p("C154", "No event asked for is lost",
  "An event for which the Registrar was called without exception waits or is entered as complete ever after; once entered as complete it stays so.",
  "all histories of calls, passes, key events, registry events, receipts, restarts and stops at any write", HIST,
  [CR+":Registrar.incept", CR+":Registrar.issue", CR+":Registrar.revoke", CR+":Registrar.processEscrows"])
p("C155", "Events asked for become complete",
  "An event that is in its log and whose key event has its receipts, or was completed by the group, is entered as complete and handed on for sending by the next pass, and reported as complete once sent; also if the process was restarted in between.",
  "all states of stores and memory, all entries, all further histories", HIST,
  [CR+":Registrar.processEscrows", CR+":Registrar.complete", "src/keri/app/agenting.py:WitnessPublisher.sendDo"])
p("C156", "An event reported as complete was sent",
  "When the Registrar reports an event as complete, a message with that event was sent to the witnesses.",
  "all histories of calls, passes and stops", HIST,
  [CR+":Registrar.complete", "src/keri/app/agenting.py:WitnessPublisher.sent"])
p("C157", "A credential reported as issued is accepted and anchored, for good",
  "When the Credentialer reports a credential as issued, the verifier has accepted it: it fits its schema, its edges lead to accepted credentials as they demand, its registry is known; an event of its log was entered as complete and is sealed by the controller of its registry. It stays reported as issued, with the same contents.",
  "all histories of calls, passes, key events, registry events, credentials, restarts and stops at any write", HIST,
  [CR+":Credentialer.complete", CR+":Credentialer.issue", CR+":Credentialer.processEscrows"])
p("C158", "A credential handed over for issuing waits until it is reported as issued",
  "A credential handed to the Credentialer waits until it is reported as issued; that happens with the next pass when it is accepted by the verifier and its issuance was reported as complete, also if the process was restarted since.",
  "all histories of calls, passes, credentials, restarts and stops at any write", HIST,
  [CR+":Credentialer.issue", CR+":Credentialer.processCredentialMissingSigEscrow"])
p("C159", "The seal remembered for an event is that of the key event which anchors it",
  "After a call of the Registrar for an event with its anchoring key event, the event enters its log as soon as that key event is in its log.",
  "all states, calls and key event logs, for single controllers and groups", HIST,
  [CR+":Registrar.issue", CR+":Registrar.revoke", CR+":Registrar.processMultisigEscrow", CR+":BaseRegistry.anchorMsg"])
RG = "src/keri/acdc/registraring.py"
RB = "src/keri/acdc/registering.py"
p("C160", "The log of a blindable registry is a chain",
  "In the log of a registry of blindable state, event 0 is an inception whose digest is the identifier of the registry, every later one is an update of that registry with its place as number that names the digest of the event before it; two stores that agree in one event agree in all before it.",
  "all histories of calls, key events, crashes at any write and reopenings, of any two stores", HIST,
  [RG+":Registry.processEvent", RG+":Registry.processEscrows", RG+":Registry._commit"])
p("C161", "Accepted registry events stay",
  "An event accepted for a number of a registry stays the event of that number.",
  "all histories of calls, key events, crashes at any write and reopenings", HIST,
  [RG+":Registry.processEvent", RB+":RegistryStore.accept"])
p("C162", "The head of a registry is its last accepted event",
  "The recorded head of a registry is the last event accepted for it, so that new updates are made after it.",
  "all histories of calls, key events, crashes at any write and reopenings", HIST,
  [RB+":RegistryStore.accept", RG+":Registry.sn", RG+":Registry.blind"])
p("C163", "Accepted registry events are sealed by the issuer of the registry",
  "For every accepted event of a registry, the key event log of the issuer of its inception had a seal of that event, in the then last event at its number and with enough witness receipts.",
  "all histories of calls, key events, crashes at any write and reopenings", HIST,
  [RG+":Registry._verifyAnchor", RG+":Registry.anchorMsg", RG+":Registry.processEvent"])
p("C164", "Calls that raise leave no trace; accepted events have no rivals",
  "A call on a registry or its manager that raises changes nothing, in the store or in memory. An event for a number that has another accepted event, or that names another predecessor than the accepted one, raises.",
  "all states, calls and events", INF,
  [RG+":Registry._validateEvent", RG+":Registry.processEvent", RG+":Registry.anchorMsg", RG+":Registry.blind", RG+":Regery.makeRegistry"])
p("C165", "The result of processing a registry event tells what became of it, and waiting events are kept",
  "After the result True the event is the accepted one of its number, after False it waits; an event that waits does so until its number has an accepted event, or the number before it has another one than it names.",
  "all histories of calls, key events, crashes at any write and reopenings", HIST,
  [RG+":Registry.processEvent", RG+":Registry._processMissingAnchors", RG+":Registry._processQueued"])
p("C166", "One pass over the escrows accepts a whole sealed chain",
  "If nobody made competing events, one pass accepts every chain of events each of which is accepted, queued, or waiting for a seal which the log of the habitat now has, whatever the order in which they came.",
  "all states whose head is up to date, all chains of any length", HIST,
  [RG+":Registry.processEscrows", RG+":Registry._processMissingAnchors", RG+":Registry._processQueued"])
p("C167", "Of competing updates the one sealed first is accepted",
  "Of several updates for one number which all name the accepted predecessor, the accepted one is the one whose seal comes first in the key event log.",
  "all sets of competing updates, all orders of arrival", HIST,
  [RG+":Registry._processQueued"])
p("C168", "Updates made by a registry follow its head and are accepted once sealed",
  "An update which a registry makes for one of its credentials has the number after the head and names the head; it is accepted at once or waits, and is accepted once it is sealed. For credentials of another registry or issuer, or invalid ones, no update is made.",
  "all histories of updates made, seals and passes", HIST,
  [RG+":Registry.blind", RG+":Registry.processEvent"])
p("C169", "An alias stands for the same registry for good",
  "An alias under which a registry was made stands for that registry ever after, also after the process was restarted.",
  "all histories of calls, crashes at any write and reopenings", HIST,
  [RG+":Regery.makeRegistry", RG+":Regery.loadRegistries", RG+":Regery.registryByName"])

SE = "src/keri/core/serdering.py"
p("C170", "Native messages are read back with the fields they were made of",
  "A key event, receipt, query, reply, prod, bare or exchange message in native CESR is read back from its bytes with the same labels and values it was made of, whatever follows it.",
  "all message types of the protocol KERI, all values of fields, all following bytes", INF,
  [SE+":Serder._dumps", SE+":Serder._loads", "src/keri/core/structing.py:Sealer"])
p("C171", "The SAID of a native message commits to its fields",
  "Two messages in native CESR that verify and have the same SAID have the same fields but for version string and SAIDs, unless they are a collision of the digest function.",
  "all pairs of messages", INF,
  [SE+":Serder._dumps", SE+":Serder._verify", SE+":Serder._compute"])
p("C172", "Native messages that are made verify",
  "A message that is made in native CESR verifies: its bytes do not depend on the version string, so its size and SAIDs are right although the version string is filled in last.",
  "all message types of the protocol KERI, all values of fields", INF,
  [SE+":Serder.makify", SE+":Serder._exhale", SE+":Serder._dumps"])
p("C173", "Native messages are found in a stream",
  "Given the front of a stream in the text or binary domain, with nothing known of it, a native message at its front is read and exactly its bytes are removed; from a part of a message nothing is read.",
  "all messages, all following bytes, all proper beginnings", INF,
  [SE+":Serder._inhale"])

BA = "src/keri/db/basing.py"
p("C174", "A replayed log reproduces the identifier",
  "The replay of an identifier's first-seen log has every event from the given ordinal on, in order, with all stored signatures. A node that holds nothing about the identifier and parses it ends with the same key state and log, and with its other identifiers unchanged.",
  "all histories of the replaying and of the receiving node, all identifiers and ordinals", HIST,
  [BA+":Baser.clonePreIter", BA+":Baser.cloneEvtMsg", E+":Kevery.processEvent"])
p("C175", "Cleaning the database verifies it and loses nothing",
  "After a clean every log in the database has been verified anew from its events, whatever the database held before; and key states, logs and own identifiers of a sound database are as they were.",
  "all database contents for the first part, all histories of the node for the second", HIST,
  [BA+":Baser.clean", BA+":Baser.cloneAllPreIter", E+":Kevery.processEvent"])

SU = "src/keri/db/subing.py"
KM = "src/keri/db/koming.py"
p("C176", "Keys made of parts are told apart",
  "The parts of a key, joined by the separator of a sub-database, are got back from the key, and different tuples of parts without separator are different keys; a key given as one text is the key of its parts.",
  "all tuples of parts, all separators", INF,
  [SU+":SuberBase._tokey", SU+":SuberBase._tokeys", KM+":KomerBase._tokey"])
p("C177", "A typed sub-database is a map from key tuples to values",
  "Every answer of put, pin, get and rem is that of a partial map from tuples of parts to values, values coming back as they were given; a value that cannot be written changes nothing.",
  "all histories of calls, all codecs on values that they read back", HIST,
  [SU+":Suber", KM+":Komer"])
p("C178", "Typed sets keep order and uniqueness at each key tuple",
  "Every answer of put, add, pin, rem, get, getLast and cnt of a sub-database of sets is that of a list of distinct values in insertion order at each tuple of parts, and no call changes the values of another tuple.",
  "all histories of calls, all codecs on values that they read back", HIST,
  [SU+":IoSetSuber", KM+":IoSetKomer"])
p("C179", "A branch is the items that continue its parts",
  "Iterating over, counting or removing the branch of leading parts concerns exactly the items whose key continues these parts, in key order, each once, and leaves all others.",
  "all histories of calls, all leading parts", HIST,
  [SU+":SuberBase.getTopItemIter", SU+":SuberBase.trim", SU+":SuberBase.cntTop", KM+":KomerBase.getTopItemIter"])
p("C180", "What is written as a value is read back as it was",
  "Base64 texts, tuples of primitives of the given classes and records are read back equal to what was written, nested records as records; anything else is refused when it is written.",
  "all values", INF,
  [SU+":B64SuberBase", SU+":CatCesrSuberBase", KM+":KomerBase", "src/keri/help/helping.py:datify"])

OO = "src/keri/app/oobiing.py"
p("C181", "A URL that was asked for is not forgotten",
  "A URL that the operator, a configuration or an accepted introduction asks for is, after any further history, waiting, requested, to be asked again, standing for other URLs, or has a result.",
  "all histories of requests, answers of servers, passes (those that raise included) and restarts, all URLs", HIST,
  [OO+":Oobiery.processFlows", OO+":Oobiery.request", OO+":Oobiery.processReply"])
p("C182", "The result of a URL is settled once and is that of its answer",
  "Once a URL has a result recorded, the record stays as it is whatever happens; it says resolved if and only if the answer was usable.",
  "all histories, all URLs", HIST, [OO+":Oobiery.processClients", OO+":Oobiery.processOobis"])
p("C183", "Every answer settles its URL, whatever other URLs there are",
  "A pass gives every requested URL that was answered a result, unless it is to be asked again, and no URL and no answer keeps other URLs from being processed.",
  "all sets of requested URLs, all answers, all further histories", HIST, [OO+":Oobiery.processClients", OO+":Oobiery.processOobis"])
p("C184", "A schema got from a URL has the SAID that was asked for",
  "Every schema that introductions put in the database has the SAID it is stored under, and this is the SAID in a URL or in a record that was asked for.",
  "all histories, all answers of servers", HIST, [OO+":Oobiery.processClients"])
p("C185", "Contacts get the alias that the operator gave them",
  "The alias of a contact entered by an introduction was given by the operator for that identifier; no server or peer changes the alias of a contact.",
  "all histories, all answers of servers, all introductions", HIST, [OO+":Oobiery.processClients", OO+":Oobiery.processReply", OO+":Oobiery.processMultiOobiRpy"])
p("C186", "A URL that stands for several has their result",
  "It has a result as soon as all of them have one and not before, failed if one of them failed and resolved otherwise.",
  "all states, all lists of URLs", HIST, [OO+":Oobiery.processMOOBIs", OO+":Oobiery.processMultiOobiRpy"])
p("C187", "A well-known URL authenticates an identifier if its server confirms it",
  "The URL is entered as authentication of the identifier exactly if its server answers with a status of success.",
  "all statuses", INF, [OO+":Authenticator.processMultiFactorAuth"])

OG = "src/keri/app/organizing.py"
p("C188", "A contact is what the calls made of it",
  "After any updates, replacements, sets, unsets and removals of contacts, get gives for every identifier exactly the fields that the calls left it, with its id, and calls on other contacts do not change it.",
  "all histories of calls, all identifiers, field names and values", HIST, [OG+":BaseOrganizer.update", OG+":BaseOrganizer.replace", OG+":BaseOrganizer.set", OG+":BaseOrganizer.unset", OG+":BaseOrganizer.rem", OG+":BaseOrganizer.get"])
p("C189", "The list of contacts is all of them, as they are",
  "After any history of calls, list gives every contact exactly once, with the same fields as get.",
  "all histories of calls, all identifiers, field names and values", HIST, [OG+":BaseOrganizer.list"])
p("C190", "Contacts are found by what they have",
  "findExact gives exactly the contacts that have the value in the field, each once, and values exactly the values that contacts have in the field, each once.",
  "all histories of calls, all fields and values", HIST, [OG+":BaseOrganizer.findExact", OG+":BaseOrganizer.values"])
p("C191", "Contacts that were altered in the database are not believed",
  "Whatever is changed in the database, what is read of a contact was signed by this controller for that contact, and last.",
  "all alterations that forge no signature, all histories of calls between them", HIST, [OG+":BaseOrganizer.get", OG+":BaseOrganizer.list"])
p("C192", "A crash while a contact is changed loses nothing",
  "Cut short at any write, a call leaves other contacts as they are and its own one as it was or as it would be.",
  "all states, all calls, all points of interruption", HIST, [OG+":BaseOrganizer.update", OG+":BaseOrganizer.replace", OG+":BaseOrganizer.rem"])
p("C193", "An image is read back as it was set",
  "After an image is set, it is got in its chunks with its type and length, whatever image was there before, and the images of other identifiers are unchanged.",
  "all databases, identifiers and streams", INF, [OG+":BaseOrganizer.setImg", OG+":BaseOrganizer.getImg", OG+":BaseOrganizer.getImgData"])

WA = "src/keri/app/watching.py"
p("C194", "Duplicity is reported if and only if watchers show it",
  "An adjudication gives at most one cue; it reports duplicity exactly if a watcher contradicts the local key state or watchers contradict each other, naming watchers that said so.",
  "all key state notices of all watchers, all thresholds and orders of watchers", INF, [WA+":Adjudicator.adjudicate", WA+":diffState", WA+":Adjudicator.performAdjudications"])
p("C195", "An update is recommended only by a threshold of agreeing watchers",
  "An update is recommended only if as many different watchers as the threshold are ahead with one digest and none says otherwise; watchers are reported as lagging, or all as consistent, exactly if they are.",
  "all key state notices of all watchers, all thresholds and orders of watchers", INF, [WA+":Adjudicator.adjudicate"])
p("C196", "Honest watchers cause no alarm",
  "If everything that watchers said is of the one log of the identifier, no duplicity is reported, wherever in the log they are.",
  "all logs, all positions of watchers", INF, [WA+":Adjudicator.adjudicate"])

EN = "src/keri/end/ending.py"
HT = "src/keri/app/httping.py"
p("C197", "A Signature header is read back as it was written",
  "The header made of any signages, read back, gives every signature of every signage under its tag, in order, with its indexing, signer, ordinal and digest.",
  "all lists of signages, all texts of tags, signers, ordinals and digests", INF, [EN+":signature", EN+":designature"])
p("C198", "Signature headers can be merged",
  "A header merged of two by a comma reads as the one followed by the other, spaces mean nothing, and there is one signage per value.",
  "all texts of headers", INF, [EN+":designature"])
p("C199", "A request is let through only when its controller signed it",
  "The validation of signed requests lets a request through if and only if the known controller's keys have signed its body; every other request is refused, and no request raises.",
  "all headers, bodies, controllers and keys", INF, [HT+":SignatureValidationComponent.process_request", HT+":SignatureValidationComponent.validate"])
p("C200", "A stream of messages is posted as requests without loss",
  "Posted as requests, a stream of messages gives one request for each message with its own attachments, in order; nothing of the stream is lost, added or moved.",
  "all streams, all sizes and kinds of messages and attachments", INF, [HT+":streamCESRRequests"])
p("C201", "Nothing that a request signature covers can be changed",
  "Two requests with the same signed text agree in the names and values of all fields covered and in the parameters; every field that was asked for is covered.",
  "all requests, fields and parameters", INF, [EN+":siginput"])
p("C202", "Introductions are served only of identifiers the host answers for",
  "A request for an introduction is answered with messages only of an identifier that is known and fully witnessed, with its delegator known, and that is an own one or has an own witness; otherwise the answer is an error that says which.",
  "all identifiers, states of the host, roles and participants", INF, [EN+":OOBIEnd.on_get"])

NO = "src/keri/app/notifying.py"
SI = "src/keri/app/signaling.py"
p("C203", "Notices are kept until they are removed",
  "After any history of adding, marking and removing notices, reading them gives exactly those added and not removed, in the order of time, marked as they were marked; their number is the count reported; each call tells whether there was something to do.",
  "all histories of calls, all points of interruption", HIST, [NO+":Notifier.add", NO+":Notifier.rem", NO+":Notifier.mar", NO+":Notifier.getNotes", NO+":Notifier.getNoteCnt"])
p("C204", "Notices that were altered in the database are not believed",
  "Whatever the database holds, a notice is read, marked or removed only if it carries the controller's signature of what it says; otherwise the call fails.",
  "all contents of the database", INF, [NO+":Notifier.getNotes", NO+":Notifier.mar", NO+":Notifier.rem"])
p("C205", "Notices are read in pages without gaps",
  "Reading from start to end gives the notices in that range; pages one after the other give all notices, each once.",
  "all histories of calls, all ranges and sizes of pages", HIST, [NO+":Noter.getNotes"])
p("C206", "Every signal is delivered once, unless a newer one takes its place",
  "Of the signals pushed since the last delivery, the next one sends exactly those without a collapse key and the last of each collapse key, in order, and leaves nothing queued.",
  "all sequences of signals", HIST, [SI+":Signaler.push", SI+":SignalIterable.__next__"])
p("C207", "Signals expire when they are old, and only then",
  "However pushes, deliveries and the expiry interleave, signals older than the timeout are taken out of the queue in the next round of the expiry, and it takes out no others.",
  "all interleavings of pushes, deliveries and steps of the expiry, all times", HIST, [SI+":Signaler.expireDo"])

AG = "src/keri/app/agenting.py"
QU = "src/keri/app/querying.py"
p("C208", "Witnesses get each other's receipts",
  "However witnesses answer, when the gathering of receipts ends its result is exactly the witnesses that answered with success, and each of these has been posted the event and the receipts of all other witnesses that are stored; witnesses that the event adds are first brought up to date.",
  "all answers of all witnesses, all kinds of events and stored receipts", INF, [AG+":Receiptor.receipt", AG+":Receiptor.catchup"])
p("C209", "Witnesses are sent the receipts of the others, whatever the order of answers",
  "When all receipts of an event are there, each witness is sent exactly those of the other witnesses, in whatever order they came.",
  "all orders in which receipts are stored, all witnesses", INF, [AG+":WitnessReceiptor.receiptDo"])
p("C210", "A messenger is idle only when all it was given is sent",
  "However giving, sending and answering interleave, a messenger is idle if and only if all messages that it was given have been sent and all requests answered.",
  "all interleavings of giving, sending and answering", HIST, [AG+":HTTPMessenger.idle", AG+":TCPMessenger.idle"])
p("C211", "A publisher reports what it sent, and is idle when it has sent all",
  "Events of own identifiers are reported as sent in the order given, each once, and the publisher is idle if and only if it has nothing left to do.",
  "all sequences of events and interleavings with the sending", HIST, [AG+":WitnessPublisher.sendDo", AG+":WitnessPublisher.idle", AG+":WitnessPublisher.sent"])
p("C212", "A query ends when the local log has what was asked for",
  "A query for a log, a number or a seal is sent, and ends exactly when the local log has it; a noticer of key states takes its own cues only.",
  "all numbers, seals, local logs and queues of cues", INF, [QU+":LogQuerier.recur", QU+":SeqNoQuerier.recur", QU+":AnchorQuerier.recur", QU+":KeyStateNoticer.recur"])
FW = "src/keri/app/forwarding.py"
HB = "src/keri/app/habbing.py"
p("C213", "Endpoints found are those last authorised and last located",
  "Whatever replies on roles and locations were accepted, what is found for an identifier, role and scheme is exactly the endpoints that the last reply for the role allows (and its witnesses, if these are asked for), with the URLs that the last reply for each scheme gives.",
  "all histories of replies, all identifiers, roles, schemes and filters", HIST, [HB+":BaseHab.fetchUrls", HB+":BaseHab.fetchRoleUrls", HB+":BaseHab.fetchEndAuthzed", "src/keri/core/eventing.py:Kevery.updateEnd", "src/keri/core/eventing.py:Kevery.updateLoc"])
p("C214", "The endpoints that messages are sent to are authorised",
  "Whatever replies were accepted, the endpoints used to send messages to an identifier are those that its last replies authorise, and the witnesses of its key state.",
  "all histories of replies, all identifiers and roles", HIST, [HB+":BaseHab.endsFor"])
p("C215", "What is told of the endpoints of an identifier is its own log, authorisations and locations",
  "Asked for an identifier, a role and endpoints, a habitat tells the log of that identifier first, then exactly the authorisations that this identifier gave last and the locations of those endpoints, and of witnesses if these are asked for.",
  "all histories of replies, all identifiers, roles and filters", HIST, [HB+":BaseHab.replyEndRole", HB+":BaseHab.loadEndRole", HB+":BaseHab.loadLocScheme", HB+":BaseHab.replyToOobi"])
p("C216", "A habitat with keys held elsewhere tells the same",
  "Asked for the endpoints of an identifier, a habitat whose keys are held elsewhere tells the same authorisations as one whose keys are here.",
  "all histories of replies, all identifiers, roles and filters", HIST, [HB+":SignifyHab.replyEndRole"])
p("C217", "A message is sent to all controllers and agents and to one mailbox",
  "A delivery that ends without an exception has sent the message with its attachment to all controllers and agents of the recipient and to one of its mailboxes, or to one witness if it has none of these; all that have a URL can be sent to, and every message can be.",
  "all endpoints, messages and random choices", INF, [FW+":Poster.deliverDo", FW+":Poster.sendDirect", FW+":Poster.forward", FW+":Poster.forwardToWitness"])
p("C218", "All messages queued are served, and reported if delivered",
  "Messages queued are served in order, each for itself; those delivered are reported and no others, and waiting for the report of one leaves the reports of others.",
  "all queues of messages, all endpoints", HIST, [FW+":Poster.deliverDo", FW+":Poster.sent", FW+":Poster.sendEventToDelegator"])
p("C219", "A stream of messages reaches the recipient whole and once",
  "All messages given for a stream are sent to the recipient in order and once, in chunks of bounded size, and the sending ends.",
  "all sequences of messages, all endpoints and modes", HIST, [FW+":StreamPoster.deliver", FW+":StreamPoster.send", FW+":StreamPoster.createForward", FW+":StreamPoster.forward"])
p("C220", "A sender introduces itself to those who may not know it, and to no others",
  "Before a forwarded message the log of the sender is sent if and only if the relay is not its witness and no receipt of the relay for its last event is stored.",
  "all relays and stored receipts", INF, [FW+":introduce"])

AN = "src/keri/core/annotating.py"
p("C221", "Taking an annotation apart gives back the stream that was annotated",
  "For every key event message in native text form, annotating succeeds and removing the annotation gives the same bytes; for every stream that can be annotated, removing the annotation gives the same bytes.",
  "all native key event messages; all streams", INF, [AN+":annot", AN+":denot"])
p("C222", "Annotating ends",
  "Annotating a stream ends, with a text or an exception, whatever the stream.",
  "all streams, all numbers of turns of the loop", INF, [AN+":annot", "src/keri/kering.py:sniff"])
p("C223", "What is annotated is one key event message and nothing else",
  "A stream is annotated only if it is one message of the types of key events; what follows a message, and messages of other types, are refused with an exception.",
  "all streams", INF, [AN+":annot"])
RG = "src/keri/vdr/credentialing.py"
p("C224", "Registries are found by their names",
  "A registry made under a name is found by that name from then on, whatever else is made and through restarts; under a name never used nothing is found.",
  "all histories of calls, deliveries and restarts; all names", HIST, [RG+":Regery", RG+":Registry.make", RG+":SignifyRegistry.make"])
p("C225", "Issuances and revocations of a registry take effect once sealed",
  "Asked to issue a credential not issued, or to revoke one that is issued and not revoked, a registry without backers makes the next event of the credential's log; no log changes before the controller has sealed the event, and once it has the event is in the log. A credential is not issued twice and not revoked unissued.",
  "all histories, all credentials and registries", HIST, [RG+":Registry.issue", RG+":Registry.revoke", RG+":BaseRegistry.processEvent", RG+":BaseRegistry.anchorMsg"])
p("C226", "What a registry with backers makes is never refused for what it says",
  "Asked to rotate, a registry with backers raises and changes nothing, or makes the event that follows its last one, with the backers cut and added as asked and a threshold within their number; it is accepted once sealed. Its issuances refer to its last event.",
  "all histories, all lists of backers cut and added, all thresholds", HIST, [RG+":Registry.rotate", RG+":Registry.issue", "src/keri/vdr/eventing.py:rotate", "src/keri/vdr/eventing.py:backerIssue"])
p("C227", "Registries whose keys are elsewhere issue, rotate and revoke like others",
  "A registry of an identifier whose keys are elsewhere makes the same issuances and revocations as one whose keys are here, and takes rotations that follow its last event.",
  "all states, all events given", INF, [RG+":SignifyRegistry"])
BK = "src/keri/db/escrowing.py"
p("C228", "Notices of transaction state come from those entitled",
  "A notice of the state of a registry or a credential is saved only if its source signed it, is the controller of the registry, one of its backers (witnesses if it has none) or an own watcher, and the event it names is in the own log.",
  "all histories of notices, signatures and states of knowledge, all sources", HIST, [T+":Tevery.processReplyRegistryTxnState", T+":Tevery.processReplyCredentialTxnState", BK+":Broker.updateReply"])
p("C229", "Saved transaction state does not go back",
  "What is saved of a source about a registry or credential is never replaced with an older state from the same source, and notices of one source leave those of others.",
  "all states, all notices", HIST, [T+":Tevery.processReplyCredentialTxnState", BK+":Broker.current", BK+":Broker.updateReply"])
p("C230", "Notices of transaction state that wait are taken when all is there",
  "A notice that waits for key state, registry or event is saved in the first look at the escrows at which all is there; after a look each one that waits still lacks what it waits for, and only saved ones are told as saved.",
  "all histories of notices and looks, all states of knowledge", HIST, [BK+":Broker.processEscrowState", BK+":Broker.escrowStateNotice", T+":Tevery.processEscrows"])
p("C231", "What notices of transaction state wait for is asked for",
  "A notice that waits makes a request, once, for what it waits for: the key state of the controller, the registry or the event.",
  "all states, all notices", INF, [T+":Tevery.processReplyRegistryTxnState", T+":Tevery.processReplyCredentialTxnState"])
p("C232", "Transaction event logs can be had from another node",
  "The answer to a query for a registry and a credential is exactly their logs in order with the seals and signatures stored; a node that has the controller's key events and processes the answer has the same logs and reports the same state of the credential.",
  "all reached states of the sender, all registries and credentials, all receivers with the key events", HIST, [T+":Tevery.processQuery", T+":Reger.clonePreIter", T+":Reger.cloneTvt"])
p("C233", "Queries for transaction state are replied",
  "A query for the state of a registry that is known is replied with its state, and one that names a credential also with the credential's state.",
  "all reached states, all queries on the route", HIST, [T+":Tevery.processQuery", T+":Tever.state", T+":Tever.vcState"])
W = "src/keri/db/webdbing.py"
p("C234", "The database in browsers answers as the one on disk",
  "The same calls for single and for numbered values, made one after the other on the in-memory database for browsers and on the one on disk, get the same answers.",
  "all sequences of calls", HIST, [W+":WebDBer.putVal", W+":WebDBer.appendOnVal", W+":WebDBer.remOnAll", W+":WebDBer.remTop", "src/keri/db/dbing.py:LMDBer"])
p("C235", "What is flushed is there when the database in browsers is opened again",
  "After a flush, opening the same stores again gives the entries and flags they had; changes are kept by the next flush, also those made while an earlier one was under way; closing with clear leaves nothing.",
  "all histories of calls and flushes, with other calls at every point of a flush", HIST, [W+":WebDBer.open", W+":WebDBer.flush", W+":WebDBer.close", W+":WebEnv.open_db"])
p("C236", "Sets in order of insertion in browsers are sets",
  "Putting, adding, pinning and removing values of sets in the database for browsers acts as on lists without repetition kept in order of insertion, one for each key; answers are those of the database on disk.",
  "all sequences of calls on all keys and values", HIST, [W+":WebDBer.putIoSetVals", W+":WebDBer.addIoSetVal", W+":WebDBer.pinIoSetVals", W+":WebDBer.remIoSetVal", W+":WebDBer.getIoSetLastItem"])
CF = "src/keri/app/configing.py"
p("C237", "Configurations that are put are got",
  "What is got from a configuration file is what was put into it last, also after it was closed and opened again; a put that raises or is interrupted leaves the configuration before it.",
  "all sequences of calls, all points at which a put can be interrupted, all codecs that read what they write", HIST, [CF+":Configer.put", CF+":Configer.get"])
SC = "src/keri/core/scheming.py"
p("C238", "A schema is what its identifier says",
  "A schema that is loaded, made or resolved has as identifier the digest of its content with the identifier masked, so that two holders of an identifier have the same schema; this stays so when its kind is set.",
  "all bytes and dicts, all histories of additions to caches", HIST, [SC+":Schemer", SC+":JSONSchema.load", SC+":CacheResolver.add", SC+":CacheResolver.resolve", "src/keri/core/coring.py:Saider.verify"])
p("C239", "Sets in browsers are kept",
  "Whatever is put, added, pinned, removed, appended or removed from a number on in sets of the database in browsers, plain ones or at numbered keys, is there when the database is opened again after a flush that ended, provided nothing was changed while the flush was under way; and where the database on disk appends a set, the one in browsers appends the same set at the same number.",
  "all histories of calls for sets, flushes, their ends and failures", HIST,
  [W+":WebDBer.appendOnIoSetVals", W+":WebDBer.remOnAllIoSet", W+":WebDBer.putIoSetVals", W+":WebDBer.pinIoSetVals", W+":WebDBer.addIoSetVal", W+":WebDBer.remIoSet", W+":WebDBer.remIoSetVal", W+":WebDBer.flush"])
p("C240", "Removing sets from a number on removes just those",
  "Removing the sets of a key from a number on leaves its sets with lower numbers and all sets of other keys, in their order, removes the others, and answers whether there were any; the database in browsers does and answers the same.",
  "all sub-databases of sets at numbered keys, all keys and numbers", HIST, ["src/keri/db/dbing.py:LMDBer.remOnAllIoSet", W+":WebDBer.remOnAllIoSet"])
p("C241", "Sets at numbered keys in browsers are counted and iterated backwards as they are forward",
  "Counting the values of a key from a number on gives the number of items that iterating forward yields with such numbers; iterating backwards from a number yields those up to it in the opposite order, the iteration of last values the last one of each number, both nothing for keys that are not there.",
  "all sub-databases of sets at numbered keys, all keys and numbers", HIST, [W+":WebDBer.cntOnAllIoSet", W+":WebDBer.getOnAllIoSetItemBackIter", W+":WebDBer.getOnAllIoSetLastItemBackIter", W+":WebDBer.getOnAllIoSetItemIter"])
p("C242", "The last values of the sets of a key are those iterating all of them yields last",
  "Iterating the last values of the sets of a key from a number on yields, for every number from it on at which there is a set and in increasing order, the item that iterating all values yields last at that number; without a key, one such item for every key and number; the database on disk and the one in browsers yield the same.",
  "all sub-databases of sets at numbered keys, all keys, numbers and separators", HIST, ["src/keri/db/dbing.py:LMDBer.getOnAllIoSetLastItemIter", W+":WebDBer.getOnAllIoSetLastItemIter"])
p("C243", "Iterating the last values of all sets yields the last value of each set once",
  "Iterating the last values of all sets, from the first key or from a given one on, yields one item for each key that has a set from there on, with the value added last; the database on disk and the one in browsers yield the same.",
  "all sub-databases of sets, all keys and separators", HIST, ["src/keri/db/dbing.py:LMDBer.getIoSetLastItemIterAll", W+":WebDBer.getIoSetLastItemIterAll"])
p("C244", "The version of a database in browsers is the one set last, also after it is opened again",
  "Reading the version of a database in browsers gives the one set last; once the database is flushed, opening it again gives that version too.",
  "all histories of setting and reading the version, flushing with and without failure, and closing", HIST, [W+":WebDBer.version", W+":WebDBer.getVer", W+":WebDBer.setVer", W+":WebDBer.close"])
