# Formal model of rops

The model is written in Lean 4 (`lean/Verif`). It follows the Rust sources of
`/repo` function by function; each definition cites the file and lines it
models. Theorems that stand for a property of `properties.jsonl` are kept in
`lean/Verif/Props/*.lean`, apart from the model (`lean/Verif/Model/*.lean`),
the small independent specifications (`lean/Verif/Spec/*.lean`) and the helper
lemmas (`lean/Verif/Lemmas/*.lean`).

## Modelling decisions

* Text is `List Char`; bytes are `List UInt8`; UTF-8 is Lean core's encoder and
  decoder. `i64` is `Int64`. A float is the text that rops keeps of it
  (`RopsFloat`); the parser/printer pair is a parameter with the law that printing is a fixed
  point of parse-then-print, which holds for `f64` (`Model/Floats.lean`, C73).
* `IndexMap` is an association list with the insertion behaviour of `indexmap`
  (replace in place or append); "keys are distinct" is the type invariant and
  appears as the hypothesis `WF`.
* `HashMap` of saved nonces is an association list with last-insert-wins lookup.
* Randomness is an explicit tape of draws (`Nat -> bytes`) and a counter.
* The clock is an argument.
* The AEAD cipher, the hash and the integrations are parameters (structures of
  functions) with exactly the laws a theorem needs: decryption inverts
  encryption, the tag has its nominal size, hashing is streaming. Security
  assumptions never appear as axioms. Tamper theorems conclude "detected, or
  here is a forgery / collision", with the forgery or collision exhibited. AES-256-GCM and SHA-512 are also
  given bit by bit (`Model/AesGcm.lean`, `Model/Sha512.lean`), and the laws are proved for them (C75).
* Regular expressions are an abstract matching predicate on (pattern, text).
* A format is its value tree; the reordering done by the TOML writer is observable, so it is part of it. All theorems hold for
  any reader and writer of the three formats. The readers and writers of JSON and TOML are also given character
  by character (`Model/JsonText.lean`, `Model/TomlText.lean`), and the laws assumed of them are proved (C71, C81). Of YAML the scalars are given (`Model/YamlScalars.lean`,
  C87), and the layout of documents (`Model/YamlLayout.lean`, C90): what `libyaml` writes in block style, and of what it reads
  the part without flow collections over several lines, pairs as items of flow sequences, keys that are collections and missing values within brackets, question marks in plain scalars there, tags, anchors, folded texts, texts over several lines outside of literals, literals that begin
  with an empty line and do not say their column, directives, end marks of documents, tabs, and comments that touch a quoted text.
  Which texts these are, and what they mean, is said a second time by a grammar (`Spec/YamlGrammar.lean`), and both are proved equal (C92).
* The operating system is a map from paths to contents plus stdin and
  environment; a final write is a sequence of file states.
* A panic is an error value.
* An error message is the text of the error and those of its sources. Texts made by libraries are
  parameters (`Wording`) that may depend on no private key and no decrypted value; the only
  exceptions are those that the library prints by its declared interface (`OsString`).

## What is modelled

| sources | model |
| --- | --- |
| file/map (tree, values, encrypted values, key paths, resolve) | Value, EncValue, Tree, Partial, MapCrypt |
| cryptography (cipher and hasher interfaces, data keys, nonces) | Crypto |
| file/metadata (mac, partial encryption, last modified) | Mac, Partial, Timestamp, Metadata |
| integration (age, AWS KMS key ids, private key retrieval, units) | Keys, Integration |
| file/core, builder, saved parameters | File |
| file/format (JSON, YAML, TOML adapters) | Format |
| `serde` derives of files and metadata | Document |
| panics while they are read, field by field | Reading |
| cli (configuration, all commands, editor loop) | Config, Cli |
| cli (declarations of options and subcommands, words of the command line) | Args |
| texts of the errors (`thiserror` attributes), printing of the error of `main` | Messages |
| `serde_json::to_string_pretty` and `from_str` as called by the JSON format | JsonText |
| `toml::to_string_pretty` and `from_str` as called by the TOML format | TomlText |
| `f64`: parsing and printing, and how `serde_json` reads and writes floats | Floats |
| file/timestamp.rs: how `chrono` 0.4.38 reads dates | Dates |
| `serde_yaml::to_string` and `from_str` as called by the YAML format | YamlScalars, YamlLayout |
| cli/edit.rs:65-88 with `shlex::split` | Shlex |
| cryptography/cipher/aes256_gcm.rs with the `aes-gcm` crate; hasher/sha512.rs with `sha2` | AesGcm, Sha512 |

Not modelled: the inside of age and KMS; what the reader of YAML does with flow collections, tags, anchors and folded texts (in
`Model/YamlLayout.lean` they are refused; the theorems before C90 hold for any reader and writer of YAML with the law that what is written is read);
the regular expression engine; arguments
and paths that are not UTF-8 (a file extension that is not makes the program panic,
cli/common.rs:49); help texts; the messages of panics; `SecretString`/zeroising; the stub
cipher; threads.

## Trusted base

* Lean's kernel (4.33.0) and the three standard axioms `propext`, `Classical.choice`,
  `Quot.sound`; `vcheck` prints the axioms of each theorem. No other axiom, no `sorry`, no
  `native_decide`, no `bv_decide`. Mathlib is used in `Lemmas/SerdeError.lean`
  (rational numbers) and in `Spec/Ghash.lean` and `Lemmas/Ghash.lean` (polynomials over ZMod 2).
* The transcription of the Rust sources into `Verif/Model`; each definition cites its lines.
* Library behaviour as assumed by the parameters' laws: `CipherLaws`, `HasherLaws`, `AgeLaws`,
  `KmsLaws` (collected in `EnvLaws`), `FloatOps` laws, `DocLaws` (dates; proved of `chrono` in C76), `TextLaws`
  / `ReadBack` (text syntaxes). Every law is satisfied by a concrete toy instance
  (`Spec/Toy*.lean`), so the hypotheses are not contradictory.
* That the crates `aes-gcm` and `sha2` compute AES-256-GCM (SP 800-38D, with nonces of 32 bytes) and SHA-512
  (FIPS 180-4). That `Model/AesGcm.lean` and `Model/Sha512.lean` do so is proved (C80), from specifications written after the
  standards: `Spec/Aes.lean`, `Spec/Sha.lean`, `Spec/Ghash.lean`. As a check of these and of the rest of the model,
  `Props/Conformance.lean` decrypts the six files made by SOPS of `crates/lib/tests/sops_references` and the JSON file of
  the tests and the YAML file of the tests (the TOML file is read and written), and encrypts them again, with the texts that the tests of the repository expect; the data keys were
  decrypted from the age parts with the private key of the tests.
* Known library behaviour written into the model: `indexmap` insertion, the order in which
  `toml` writes, `serde(flatten)`, base64 leniency, clap's `SetTrue` giving `Some(false)`,
  how clap reads the words of a command line (`Model/Args.lean`),
  `serde_json` refusing to hold infinite floats, its grammar, escapes, nesting limit of 128 and treatment
  of repeated keys (`Model/JsonText.lean`; its source is not in the repository), its reading of floats without
  the feature `float_roundtrip` (`Model/Floats.lean`), and how `chrono` reads dates: its relaxed RFC 3339, years of up to
  six digits with sign, leap seconds, offsets (`Model/Dates.lean`; its source is not in the repository), and how `toml` and `toml_edit` write
  and read TOML (`Model/TomlText.lean`; their source is not in the repository; dates in `Model/TomlDates.lean`, a parameter before C86, and the
  simplifications are at the head of the file). Floats: the digits that fit `u64` as a float, multiplied or
  divided by a power of ten, so rounded twice or more. The feature is not set in `crates/lib/Cargo.toml`.
  `serde_yaml` 0.9.34: which value a plain scalar is, and which texts are quoted (`Model/YamlScalars.lean`; its source is not in the repository).
  Its layout of documents, which is that of `libyaml` (`Model/YamlLayout.lean`): which texts are plain, quoted or literal, indentation, keys of over 128
  characters or several lines, and the limit of 128 levels of the reader. Simplified: the limit of 1024 characters of keys is not checked,
  and some texts that are refused by the model may be read by `libyaml`.
  `shlex` (`Model/Shlex.lean`).
* Simplifications of the model: YAML tags and keys that are no strings in parts of the metadata that are
  otherwise ignored are errors; repeated keys of YAML documents are left to the reader; in a JSON
  text repeated keys below a top-level key "sops" are kept (the metadata reader refuses them where the code
  does, C60).

## Where the code does not do what one expects

Each is proved as a negative theorem with a concrete file, or limits the hypotheses.

* A key that contains ':' is resolved by its last segment when encrypting and as a whole when
  decrypting and in the MAC (C08). `{"db:secret": "pw"}` with `encrypted_suffix: ":secret"` is stored in
  plaintext, in a file nobody can decrypt; `{"db:plain": "pw"}` with `unencrypted_suffix: ":plain"` and
  `mac_only_encrypted: true` is decrypted without an error to the value `"ENC[...]"`. Joined paths of
  different values can coincide (C15).
* Saved nonces are keyed by (path, value): equal values in one sequence share one nonce on the
  next edit (C11, C12). The MAC nonce is reused with other associated data (C13). For AES-GCM this is grave: an edit that
  changes the document but not the hashed bytes (a key renamed, a null added) publishes two tags whose difference
  is a polynomial with known coefficients (the two dates) at the hash key of the file (C75): no more than eleven of the 2^128 hash keys are left (C77). Who has the hash key
  moves encrypted values to other keys, or replaces known ones, without the data key, and the MAC still matches as it
  covers no keys.
* The MAC covers the concatenated bytes of values only: structure, keys of plaintext values,
  types and settings are not authenticated (C16 - C18, C20). Of the date only the second counts: it can be written in
  any other way, time zone and fraction of a second (C76).
* `set_map` compares maps without order, so a reordering is not dated (C27).
* `book/concepts.md` says that MAC verification denies any unauthenticated addition, removal or
  reordering of unique values. The elements of a list share their key path and the MAC hashes the bare
  concatenation, so the list "a", "aa", "" may be changed to "aa", "a" (C65).
* Recipients and settings are not authenticated, though `book/goals.md` says that modifying the metadata
  will most likely prevent decryption: an inserted age recipient goes unnoticed and is given the new data key
  when some other key is removed; a replaced setting goes unnoticed and makes `rops edit` store what is added
  in plaintext (C66).
* YAML tags count in this comparison but are dropped, so an edit that only adds a tag changes the date
  and nothing else, each time it is repeated (C27).
* Removing one's own key fails half way or locks everyone out (C24, C25); saved parameters
  carry the removed data key (C25).
* `rops keys remove` encrypts the new data key for every other recipient, also for those that the same
  command removes next. Without AWS credentials for each KMS recipient no other key of the file can be
  revoked; one's own last key and the last recipient cannot be removed (C67).
* `rops keys add --age` reads the age private keys even if the data key is found through KMS, and fails if
  they are unreadable (C67).
* TOML: "null" texts become nulls (C28), dates become texts (C30), values after tables make
  the file undecryptable (C31).
* A file with a text "null" that the library decrypts to TOML and encrypts again can no longer be decrypted;
  no error is reported (C69).
* `rops encrypt` ignores `mac_only_encrypted` of the configuration (C34); `rops refresh` with
  `mac_only_encrypted = false` rewrites the file each time (C35).
* Writing is not atomic: a crash leaves a prefix (C38).
* ARNs with missing segments are not written back (C40).
* A plaintext float of a JSON file, such as 9.074340925238958, is read as another one than it was written,
  because `serde_json` reads floats inexactly; then the MAC does not match and the file that `rops encrypt`
  wrote can no longer be decrypted (C73). C74 says exactly which files are hit: those with a plaintext float that
  drifts; with `mac_only_encrypted` such a file opens, with the other float. How far it can drift is bounded
  in C78: a part in 2^49, or two of the smallest floats.
* A top-level key "sops" makes the encrypted file unreadable (C44), so does encrypting twice
  (C49).
* Encrypted Booleans are recognised by their length (C48).
* An edit that is open while a key is removed restores the key (C52).
* Removing a key makes a new data key, but the `created_at` of the remaining KMS units is
  not updated (C54).
* KMS requests ignore the partition, service, account and resource path of the ARN, so
  "alias/x" and "key/x" are the same request; a refused decryption is an error labelled
  as one of encryption and hides later units (C53).
* A file for age recipients can be replaced by anyone who sees it, by one with a content of
  their choice that decrypts without error (C57).
* An ARN whose resource is not split by '/' or ends in one panics, and so does an encrypted
  value with a long iv or tag (C55). Changing the type tag of a secret "inf" keeps the MAC
  valid and makes decryption to JSON panic (C55). A bad ARN in the configuration crashes every
  command, also those that use no configuration (C63). `edit` panics if EDITOR is set but empty,
  or if interrupts are ignored already (as for background jobs of a shell without job control),
  after it has written the secrets to its temporary file; this is deleted (C63). Any command that
  prints panics on a closed pipe (C37).
* `edit` gives no second chance for a document that can be parsed but not represented: the edit is
  lost (C64).
* The help calls the values of `--age` and `--aws-kms` space separated lists, but a second word
  is taken for the file (C58).
* The message of a MAC mismatch shows the computed MAC twice and never the stored one; whoever
  changes the file can have it show the unsalted hash of one secret, or, by changing a type tag
  to "bool", the bytes of the secret themselves (C61). An incomplete AWS private key and a
  variable that is not Unicode are printed whole (C61).
* Messages quote parts of the file without escapes: whoever changes a ciphertext can send escape
  sequences to the terminal of whoever decrypts the file (C98). Documents cannot.
* A misspelt field of a rule is not noticed, so that a rule may have no keys or encrypt other
  values than meant (C59). One invalid rule stops every command (C59, C42).

## Mutation tests

`seeded/LOG.jsonl` has one line for each wrong program tried against the theorems. The field
`detection` says how the edit was noticed:

- `theorem`: the proof of a property theorem itself broke (`theorems_failed`). A broken proof is
  strong evidence, but not a proof, that the statement is false of the edited program. For some edits
  the negation of the statement was proved instead, with copies of the edited definitions (`note`).
- `lemma only`: only helper lemmas broke (`lemmas_failed`). The theorems whose proofs use these
  lemmas are in `theorems_resting_on_failed_lemmas`. This alone does **not** show that their
  statements are false of the edited program: a lemma that mirrors a definition breaks at any edit
  of it. Every such line therefore has an `audit`, or a `note` that says why the edit breaks no claim or
  which theorem was added. "refuted by machine" means that the negation of a
  property theorem's statement was proved with the edited program. "evaluated" means that the edited
  program was run and gave another result than the unedited one at the input shown, where a theorem
  (proved of the unedited program) fixes the result by a specification that does not use the edited
  definition. "argued" means that the statement was only read and compared with the edit.
  "not examined" means that nobody looked at the edit again after the lemmas broke: these lines are
  no evidence that the property theorems notice it.
- `none`: nothing broke. Then `theorems_tightened` or `note` says what was done.

Versions of the log before this section was written listed both kinds together under
`theorems_failed`, which overstated the detections. Examples that broke are in `other_failures`.
Edits are made to the model; they cannot find places where the model differs from the Rust code.
For these, each model file was read again line by line against its source.

## Property plan

| id | modelled | proof |
| --- | --- | --- |
| C01 | map encrypt/decrypt over a nested tree with nonce tape | mutual induction on the tree |
| C02 | builder + file decrypt + adapters | composition of C01, C05, C03, C14, C29, C32, C26 |
| C03 | text format and base64 | computation over split/strip lemmas, base64 induction |
| C04 | same | injectivity from C03; canonical form from C06 |
| C05 | as_bytes/from_bytes | case analysis, decimal digits lemma, UTF-8 lemma |
| C06 | concrete base64 | induction in steps of three bytes / four characters |
| C07 | resolve + traversal | leaf-with-path specification, induction |
| C08 | same, builder and file decrypt with any keys | what is stored against what is read, leaf by leaf; lengths of the covered bytes; two concrete documents for all environments |
| C09 | shape function forgetting leaves | induction |
| C10 | nonce tape | induction, counter monotonic |
| C11 | saved nonce table | induction with table invariant |
| C12 | log of (nonce, path, value) over edits | invariant over histories |
| C13 | MAC nonce selection | decision logic + witness |
| C14 | compute vs. flat list specification | induction |
| C15 | joined path | injectivity by induction; contrapositive of cipher binding |
| C16 | file decrypt | composition |
| C17 | file decrypt | witnesses valid for every cipher and hasher |
| C18 | compute | induction |
| C19 | validate_mac | decision logic, stated on the specification of C14 |
| C20 | metadata decrypt | unfolding with forgery disjunct |
| C21 | add_keys | fold invariant |
| C22 | operation histories | invariant |
| C23 | remove_integration_key | map invariant |
| C24 | same | decision |
| C25 | witness + general theorem | composition |
| C26 | find_map over units | induction |
| C27 | set_map | decision |
| C28 | three adapters | mutual induction |
| C29 | three adapters | mutual induction, C03, C07 |
| C30 | number conversion | case analysis |
| C31 | reorder function of the TOML writer | witness + fixed point induction |
| C32 | builder | fold invariant |
| C33 | merge_config | induction on rules |
| C34 | flag parsing + merge | decision |
| C35 | refresh | composition of C02, C32 |
| C36 | get_format | decision |
| C37 | CLI world | case analysis |
| C38 | write trace | witness + characterisation |
| C39 | edit | composition of C11 |
| C40 | ARN text | split lemmas + witness |
| C41 | retrieval | list lemmas |
| C42 | traversal | induction on path |
| C43 | metadata document | case analysis, fold invariant |
| C44 | file document | lookup lemmas + witness |
| C45 | operation histories | invariant, with C01, C02, C11, C21, C23 |
| C46 | split on '.' | list lemmas |
| C47 | map/file encryption with an opaque cipher | relational induction (pairs of maps) |
| C48 | length of the ciphertext | computation |
| C49 | `rops encrypt` on an encrypted file | key lookup; byte count of the MAC input for TOML |
| C50 | `rops encrypt`, `rops decrypt` | composition of C02, C30, C44 |
| C51 | sequences of commands of any processes | invariant over histories of the file |
| C52 | two processes with the same file | event traces, C51 |
| C53 | requests to AWS KMS | case analysis; induction over the units for the recipient |
| C54 | creation dates of units | induction over the added keys |
| C55 | panics | case analysis; the retagged file by the argument of C17 |
| C56 | what `rops encrypt` shows | C47 through the exact description of its runs |
| C57 | forged files | induction over the recipients; C02 |
| C58 | words of the command line | invariant of the word loop; grammar of items; induction over items |
| C59 | documents of configurations | exact description; induction over lists of rules |
| C60 | documents of metadata | exact description; induction over units inserted into a map |
| C61 | error messages | exact errors of decryption; injectivity of the printed bytes; witnesses for every file |
| C62 | what `rops refresh` and `rops keys remove` show | C47 through the exact description of the runs; invariant over removed keys |
| C63 | crashes of the program | case analysis of every run; reading with panics refines reading (agreement lemmas); exact conditions (iff) on metadata and configurations that panic |
| C64 | what becomes of an edit | composition of the edit loop, `set_map` and encryption; totality of encryption |
| C65 | exactly which changes of the map are accepted | lists of items (path, leaf, value); cancellation and commuting words |
| C66 | recipients and settings are not authenticated | units inserted into any file; `Holding` carried over to another setting |
| C67 | which keys a process needs to write encrypted files | totality of every step under capability hypotheses; invariant over removed keys |
| C68 | what a builder makes of its calls | induction over the calls from the last; extensionality of builders |
| C69 | conversion between formats | induction over the conversions with `Holding` as invariant; length of the hashed bytes |
| C70 | what is said about bad documents | relation of texts to complaints, stage by stage; first item refused in document order |
| C71 | the texts of JSON documents | grammar as a relation; reader complete and sound for it, by mutual induction with fuel |
| C72 | JSON files are restored byte for byte | histories without assumptions on the syntax; what stands for a read document survives (nesting, keys, scalars) |
| C73 | floats are kept, except by the JSON reader | `f64` as multiples of the smallest float; rounding is nearest, printing is read back; witness for what is lost |
| C74 | what drifting floats do to JSON files | relabelling of trees commutes with writing, reading and conversion; then C65 |
| C75 | AES-256-GCM and SHA-512 | both computed; GHASH is linear; nonce reuse gives an equation for the hash key |
| C76 | dates | grammar as a relation, reader complete and sound for it; day numbers are injective; the whole round trip from C71, C73, C75 |
| C77 | forging | GHASH over a field: squaring 128 times is the identity, only 0 and 1 are idempotent (certificates checked by the kernel), so inverses exist; roots by division |
| C78 | which text stands for which float | rounding is monotone, so the largest exponent that works has the fewest digits; grammar of floats against the reader; error bounds in ℚ (Mathlib) for every path of `serde_json` |
| C79 | what commands show of secrets | runs of two processes that differ in file contents (or edits) compared event by event; C47 for the values |
| C80 | AES-256-GCM and SHA-512 are those of their standards | byte field as polynomials modulo x^8+x^4+x^3+x+1, state as rows and columns, key expansion by words; constants of SHA-512 as the unique roots of primes; GHASH in the quotient ring of ZMod 2 [X] (Mathlib) |
| C81 | the texts of TOML documents | writer as lines of statements, reader as statements and then tables; lexing by induction over the statements, building by induction over the document; invariant of the builder for what is read |
| C82 | TOML files through any commands, with the syntax of TOML | from C51 and C81: documents of encrypted files are writable (distinct keys, levels, scalars; metadata is shallow), induction over histories; what is written for the values of a document is the document with texts for dates |
| C83 | which texts are read as TOML documents | the grammar as relations (`Spec/TomlGrammar.lean`), reader complete and sound for each lexeme, value and line; uniqueness from the reader |
| C84 | what the statements of a TOML document say | places and counts of tables told from the statements alone (`Spec/TomlMeaning.lean`); what each of the three changes and the descent to it add to what is seen; induction over statements |
| C85 | which TOML statements fit together | a sketch of kinds by path (`Spec/TomlMeaning.lean`); the descent succeeds exactly on passable paths; the sketch follows the document, by induction over statements |
| C86 | the dates of TOML documents | readers of fixed digits, fractions and offsets are shown to be the relations of `Spec/TomlDates.lean`; padding and trimmed zeros give such texts, and digits of a fixed length are determined by their number, so the written text is the shortest; how dates begin keeps them from being numbers |
| C87 | scalars in YAML keep their types | the readers of integers and floats are shown to be the relations of `Spec/YamlScalars.lean`; texts with a point or exponent are no integers; induction over documents with any choice of plain or quoted scalars |
| C88 | YAML files, with the scalars of YAML | as C82: what is read is sound, encrypted documents of sound documents are sound and at most as deep, then C51 and C52; the layout is a hypothesis |
| C89 | The editor that is run | a relation between words and texts; the reader as an automaton, each state described by the relation; quoting by induction |
| C90 | the layout of YAML documents | each scalar form is read back (induction over texts and lines); then nodes, sequences and mappings by mutual induction with fuel and conditions on the lines that follow; what is read has no tags and at most 128 levels |
| C91 | the program with all of its parts | C72, C82 and C88 with the laws of C71, C73, C75, C76, C86 and C90; texts in place of dates keep soundness, levels and order |
| C92 | which texts are YAML documents | the grammar of `Spec/YamlGrammar.lean` against the reader: each scalar and key form both ways; soundness by induction on fuel with the lines a node owns, completeness by induction on fuel bounded by the characters that are no spaces, with conditions on the next line |
| C93 | encrypted values stand in files as they are | the characters of `ENC[…]` need no escapes and no quotes; a leaf of the tree is found in the written text by induction on where it is (`Lemmas/Verbatim.lean`) |
| C94 | how YAML documents are written | each form of a scalar against a description that is not a program (`Spec/YamlShown.lean`); then mutual induction over the document; the description has one text by induction as well, and none of its lines ends with a space |
| C95 | an edit changes few lines | C11 and C12 give the ciphertexts of values that stay; then two trees of the same shape are written in texts that differ in the lines of their differing leaves, by mutual induction (`Lemmas/Lines.lean`, `Lemmas/LinesYaml.lean`, `Lemmas/LinesToml.lean`) |
| C96 | how JSON documents are written | a description that is not a program (`Spec/JsonShown.lean`); it holds of the written text and has one text, each by mutual induction (`Lemmas/JsonShown.lean`) |
| C97 | how TOML documents are written | a description that is not a program (`Spec/TomlWritten.lean`), equivalent to being the written text; mutual induction with the paths of the sections (`Lemmas/TomlWritten.lean`) |
| C98 | documents and messages on a terminal | mutual induction over the writers (`Lemmas/Terminal.lean`); the characters of the lines of YAML are those of C94; C70 for the messages |
