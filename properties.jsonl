{"id": "C01", "title": "Map encryption round-trips", "statement": "Decrypting a map that was just encrypted with the same data key gives back exactly the original map: same keys, same key order, same nesting, same typed values, whatever partial encryption setting was used and whichever random nonces were drawn, with or without saved nonces.", "quantifier": "every well-formed plaintext map of any size and depth, every data key, every partial encryption setting, every nonce sequence, every saved-nonce table, every cipher whose decryption inverts its encryption", "why_tests_cant": "The input space is unbounded recursive maps times random nonces; the unit tests check one mock map.", "anchors": ["crates/lib/src/file/map/encrypt.rs: encrypt, encrypt_with_saved_nonces", "crates/lib/src/file/map/decrypt.rs: decrypt", "crates/lib/src/file/map/value/core.rs: encrypt", "crates/lib/src/file/map/value/encrypted.rs: decrypt"]}
{"id": "C02", "title": "A freshly created file decrypts to its plaintext", "statement": "A file produced by the builder decrypts, by anyone whose private key resolves the stored data key, to exactly the plaintext map it was built from, the MAC check included.", "quantifier": "every plaintext format map, builder setting, set of key ids, clock value and random draw", "why_tests_cant": "Needs the composition of adapters, map encryption, MAC, metadata encryption and key wrapping for all inputs; a test covers one mock.", "anchors": ["crates/lib/src/file/builder/core.rs: encrypt", "crates/lib/src/file/core.rs: decrypt", "crates/lib/src/file/format/adapters.rs"]}
{"id": "C03", "title": "Encrypted value text round-trips", "statement": "Writing an encrypted value as text and parsing it back gives the identical ciphertext, nonce, authorization tag and type.", "quantifier": "every ciphertext byte string, nonce and tag of the cipher's sizes, every value type", "why_tests_cant": "All byte strings of all lengths; tests check one literal.", "anchors": ["crates/lib/src/file/map/value/encrypted.rs: Display, FromStr", "crates/lib/src/base64utils.rs", "crates/lib/src/cryptography/nonce.rs", "crates/lib/src/cryptography/authorization_tag.rs"]}
{"id": "C04", "title": "Encrypted value text has one reading", "statement": "Two encrypted values with the same text are the same value, and any text accepted as an encrypted value with full size nonce and tag re-serialises to itself up to trailing base64 padding and ignored trailing components.", "quantifier": "every pair of encrypted values; every input text", "why_tests_cant": "Quantifies over all texts.", "anchors": ["crates/lib/src/file/map/value/encrypted.rs: FromStr", "crates/lib/src/base64utils.rs: decode_base64"]}
{"id": "C05", "title": "Values survive their byte representation", "statement": "Turning a value into the bytes that are encrypted and reading those bytes back with the value's own type gives the same value, for strings, booleans, the whole 64 bit integer range and floats.", "quantifier": "every value", "why_tests_cant": "2^64 integers and all strings.", "anchors": ["crates/lib/src/file/map/value/core.rs: as_bytes, from_bytes"]}
{"id": "C06", "title": "Base64 decoding inverts encoding and is canonical", "statement": "Decoding the base64 of any bytes gives those bytes; a text that decodes to some bytes is, up to trailing '=' characters, the base64 encoding of those bytes.", "quantifier": "every byte string; every text", "why_tests_cant": "All byte strings of all lengths.", "anchors": ["crates/lib/src/base64utils.rs"]}
{"id": "C07", "title": "Partial encryption decision", "statement": "A value is stored in plaintext exactly when the partial encryption setting says so for its key path: with encrypted_suffix/encrypted_regex when no key on its path matches, with unencrypted_suffix/unencrypted_regex when some key on its path matches, and never without a setting. A match locks the decision for all descendants.", "quantifier": "every map without ':' in keys, every setting, every leaf; and every map if the setting is a suffix without ':' (other keys: C08)", "why_tests_cant": "All key paths of all depths.", "anchors": ["crates/lib/src/file/metadata/partial_encryption.rs: resolve, escape_encryption", "crates/lib/src/file/map/encrypt.rs", "crates/lib/src/file/map/key_path.rs: last", "book/concepts.md: Partial Encryption"]}
{"id": "C08", "title": "A key containing ':' can defeat partial encryption", "statement": "For keys that contain ':' the encryption side decides on the part of each key after its last ':' while the reading side and the MAC decide on the whole keys. A file with a value that is stored in plaintext and expected to be encrypted can be decrypted by nobody. A value that is encrypted and expected in plaintext is read as the text of its encryption: with mac_only_encrypted the file is then decrypted without any error, to the wrong value; otherwise it is refused, unless the digests of the right and the wrong values are equal, which needs a collision if ciphertexts are as long as plaintexts. Settings by a suffix without ':' and maps whose keys have no ':' are not affected.", "quantifier": "all maps, settings, formats, hosts and lawful ciphers; the concrete documents exist for every environment in which they are encrypted; the positive counterpart is C07", "why_tests_cant": "The tests have no key with ':', and whether a file is unreadable for every host and every key, or read with other values, is a statement about all hosts and all ciphers.", "anchors": ["crates/lib/src/file/map/key_path.rs: last", "crates/lib/src/file/map/encrypt.rs:49-51", "crates/lib/src/file/format/adapters.rs:84-86", "crates/lib/src/file/metadata/mac/decrypted.rs: compute", "crates/lib/src/file/core.rs: decrypt"]}
{"id": "C09", "title": "Only values change", "statement": "Encryption and decryption keep every key, the order of keys, the nesting, the sequence lengths and the nulls; only leaf values are replaced.", "quantifier": "every map and setting", "why_tests_cant": "All trees.", "anchors": ["crates/lib/src/file/map/encrypt.rs", "crates/lib/src/file/map/decrypt.rs"]}
{"id": "C10", "title": "Nonces are fresh on a first encryption", "statement": "If the random generator never repeats, no two values of a newly encrypted file, nor its MAC, are encrypted with the same nonce.", "quantifier": "every map, setting and non-repeating random sequence", "why_tests_cant": "All trees and all schedules of random draws.", "anchors": ["crates/lib/src/file/map/encrypt.rs:95-98", "crates/lib/src/cryptography/nonce.rs: new", "crates/lib/src/file/metadata/mac/decrypted.rs: encrypt_impl"]}
{"id": "C11", "title": "Saved parameters reproduce the file", "statement": "Decrypting while saving parameters and encrypting again without changes gives a file identical to the original, provided no two encrypted values share both key path and value.", "quantifier": "every encrypted file", "why_tests_cant": "All trees, all nonces; one parity sample is tested.", "anchors": ["crates/lib/src/file/core.rs: decrypt_and_save_parameters, encrypt_with_saved_parameters", "crates/lib/src/file/map/saved_nonces.rs"]}
{"id": "C12", "title": "Saved nonces are never reused for a different plaintext", "statement": "Across any number of edits of a file under one data key, two values encrypted with the same nonce have the same key path and the same value.", "quantifier": "every history of edits (decrypt with saved parameters, replace map, encrypt with saved parameters)", "why_tests_cant": "A property of whole histories and of the random generator.", "anchors": ["crates/lib/src/file/map/saved_nonces.rs", "crates/lib/src/file/map/encrypt.rs", "crates/lib/src/file/map/decrypt.rs"]}
{"id": "C13", "title": "MAC nonce reuse on edits that keep the MAC", "statement": "When an edit changes the map but not the hashed values (for instance renames a key or adds a null), the MAC is encrypted again under the same key and nonce with a different last modified date as additional data; when the last modified date is unchanged or the MAC differs, no such reuse happens.", "quantifier": "every edit; existence of a violating edit", "why_tests_cant": "History and equality of hashes.", "anchors": ["crates/lib/src/file/metadata/mac/saved_mac_nonce.rs: get_or_create", "crates/lib/src/file/core.rs: set_map", "crates/lib/src/file/metadata/mac/decrypted.rs:116-141"]}
{"id": "C14", "title": "What the MAC covers", "statement": "The MAC is the upper case hex hash of the concatenation, in document order, of the byte representations of all leaf values, or with mac_only_encrypted of a fixed prefix and the encrypted values only.", "quantifier": "every map and setting, every hasher that hashes a stream", "why_tests_cant": "All trees.", "anchors": ["crates/lib/src/file/metadata/mac/decrypted.rs: compute", "crates/lib/src/file/metadata/mac/mac_only_encrypted.rs"]}
{"id": "C15", "title": "Ciphertexts are bound to their key path", "statement": "If decryption accepts an encrypted value at some key path, then either the cipher accepted a ciphertext under additional data it was not produced with (a forgery) or the value was encrypted for that same joined key path; for keys without ':' the joined path determines the list of keys.", "quantifier": "every tampered map, every cipher", "why_tests_cant": "All tamperings.", "anchors": ["crates/lib/src/file/map/key_path.rs: join", "crates/lib/src/file/map/decrypt.rs", "crates/lib/src/file/map/value/encrypted.rs: decrypt"]}
{"id": "C16", "title": "Tampering with values is detected", "statement": "If a modified file still decrypts under the same data key and with the original encrypted MAC, then the concatenated bytes of its hashed values equal those of the original, unless a hash collision or a forged ciphertext occurred.", "quantifier": "every pair of original and modified file", "why_tests_cant": "All tamperings.", "anchors": ["crates/lib/src/file/core.rs: decrypt, validate_mac", "crates/lib/src/file/metadata/mac/decrypted.rs: compute"]}
{"id": "C17", "title": "What the MAC does not cover", "statement": "There are modifications that decryption accepts: renaming the key of a plaintext value, adding or removing nulls, moving characters between adjacent plaintext values, and changing the type tag of a ciphertext.", "quantifier": "existence, with every cipher and hasher", "why_tests_cant": "Gives the precise limits of C16; a test suite would need to guess them.", "anchors": ["crates/lib/src/file/metadata/mac/decrypted.rs: compute", "crates/lib/src/file/map/value/encrypted.rs: decrypt"]}
{"id": "C18", "title": "mac_only_encrypted frees plaintext values", "statement": "With mac_only_encrypted, replacing values that are stored in plaintext by arbitrary other values leaves the MAC unchanged, so the file still decrypts; without it the MAC covers every value.", "quantifier": "every map, setting and replacement of plaintext values", "why_tests_cant": "All replacements.", "anchors": ["crates/lib/src/file/metadata/mac/decrypted.rs: compute", "book/concepts.md: Compute MAC for encrypted values only"]}
{"id": "C19", "title": "Decryption succeeds only with a matching MAC", "statement": "decrypt and decrypt_and_save_parameters return a file only when the MAC recomputed from the decrypted map with the file's own settings equals the decrypted stored MAC; otherwise an error is returned and no map.", "quantifier": "every encrypted file", "why_tests_cant": "All files, including malicious ones.", "anchors": ["crates/lib/src/file/core.rs: decrypt, decrypt_and_save_parameters, validate_mac"]}
{"id": "C20", "title": "The last modified date is authenticated", "statement": "Changing the last modified date (at second resolution) of a file makes its decryption fail unless the cipher accepts the MAC ciphertext under additional data it was not produced with.", "quantifier": "every file and date", "why_tests_cant": "All dates.", "anchors": ["crates/lib/src/file/metadata/mac/encrypted_mac.rs: decrypt_impl", "crates/lib/src/file/timestamp.rs"]}
{"id": "C21", "title": "Adding keys keeps the file and grants access", "statement": "After a successful add_keys every listed key id is in the metadata and wraps the file's current data key, the units of other key ids and the map and the MAC are untouched, so the file decrypts to the same map.", "quantifier": "every file, key id list and integration", "why_tests_cant": "All files and lists, with duplicates.", "anchors": ["crates/lib/src/file/core.rs: add_keys", "crates/lib/src/file/metadata/integration/core.rs: add_keys", "crates/lib/src/file/metadata/integration/units.rs: insert"]}
{"id": "C22", "title": "All units wrap one data key", "statement": "In every file reachable by creating it and then adding keys, removing keys with re-encryption, and editing, all integration units wrap the same data key, and that key encrypts the map and the MAC.", "quantifier": "every history of operations that succeed", "why_tests_cant": "Invariant over all histories.", "anchors": ["crates/lib/src/file/builder/core.rs", "crates/lib/src/file/core.rs", "crates/lib/src/file/metadata/core.rs"]}
{"id": "C23", "title": "Removing a key rotates the data key", "statement": "After removing a present key id the id is gone from the metadata, every remaining unit wraps one newly generated data key, and the re-encrypted file is encrypted under that new key only.", "quantifier": "every file, every present key id", "why_tests_cant": "All metadata contents and orders.", "anchors": ["crates/lib/src/file/metadata/core.rs: remove_integration_key", "crates/lib/src/file/core.rs: remove_integration_key, encrypt"]}
{"id": "C24", "title": "Removing an absent key changes nothing", "statement": "Removing a key id that is not in the metadata returns nothing and leaves the metadata unchanged, without rotating the data key.", "quantifier": "every file and absent key id", "why_tests_cant": "All metadata.", "anchors": ["crates/lib/src/file/metadata/core.rs: remove_integration_key"]}
{"id": "C25", "title": "Saved parameters must not survive a key removal", "statement": "Encrypting with parameters saved before a key removal produces a file whose units wrap a data key that does not decrypt it.", "quantifier": "existence; every such sequence when new and old data key differ and the cipher rejects wrong keys", "why_tests_cant": "A protocol misuse that types allow.", "anchors": ["crates/lib/src/file/core.rs: encrypt_with_saved_parameters, remove_integration_key"]}
{"id": "C26", "title": "One usable private key is enough", "statement": "The data key is found whenever some stored unit can be decrypted with an available private key and no earlier unit fails with an error; age units are tried before KMS units, in stored order, units without a matching private key are skipped. An error in an earlier unit hides later usable units.", "quantifier": "every metadata and every set of available private keys", "why_tests_cant": "All orders and availability patterns.", "anchors": ["crates/lib/src/file/metadata/integration/core.rs: decrypt_data_key", "crates/lib/src/integration/age.rs: decrypt_data_key", "crates/lib/src/integration/aws_kms/core.rs: decrypt_data_key"]}
{"id": "C27", "title": "set_map keeps date and MAC consistent with the map", "statement": "After set_map the file holds the new map, its MAC is the MAC of the new map, and the last modified date is the current time if the maps differ and the old date if they are equal, where equality ignores key order. Tags of YAML values count when maps are compared although they are dropped, so setting a map whose tags are all that is new gives the old map with a new date.", "quantifier": "every decrypted file and new map", "why_tests_cant": "All maps; order-insensitive equality is easy to miss.", "anchors": ["crates/lib/src/file/core.rs: set_map"]}
{"id": "C28", "title": "Adapters round-trip decrypted maps", "statement": "Converting an internal map to the JSON, YAML or TOML representation and back gives the same map with the same key order, for the maps each format can represent (JSON: no infinite or NaN floats; TOML: no string equal to \"null\"). The document written has the keys, nulls and nesting of the map, the scalar of each value, and no YAML tags or TOML datetimes.", "quantifier": "every representable map in each format", "why_tests_cant": "All trees.", "anchors": ["crates/lib/src/file/format/json/mod.rs", "crates/lib/src/file/format/yaml/mod.rs", "crates/lib/src/file/format/toml/mod.rs", "crates/lib/src/file/format/adapters.rs"]}
{"id": "C29", "title": "Adapters round-trip encrypted maps", "statement": "Converting an encrypted internal map to a format representation and reading it back with the partial encryption setting it was encrypted with gives the same encrypted map. The document written has its keys, nulls and nesting, the text of each encrypted value and the scalar of each plain one.", "quantifier": "every encrypted map produced by encryption with keys without ':', or with any keys if the setting is a suffix without ':'", "why_tests_cant": "All trees and settings.", "anchors": ["crates/lib/src/file/format/adapters.rs: encrypted_to_internal, encrypted_from_internal", "crates/lib/src/file/format/json/mod.rs", "crates/lib/src/file/format/yaml/mod.rs", "crates/lib/src/file/format/toml/mod.rs"]}
{"id": "C30", "title": "Numbers are never silently altered", "statement": "Reading a JSON or YAML integer gives exactly that integer or an out-of-range error; it never wraps or rounds. A scalar in plaintext where a ciphertext is required is an error, never accepted. An encrypted document is refused exactly with the error of its first scalar that does not belong at its place.", "quantifier": "every number and every map", "why_tests_cant": "All 64 bit numbers.", "anchors": ["crates/lib/src/file/format/json/mod.rs: to_internal_number", "crates/lib/src/file/format/yaml/mod.rs: to_internal_number", "crates/lib/src/file/format/map.rs"]}
{"id": "C31", "title": "TOML output order can invalidate the MAC", "statement": "The TOML serialiser writes plain values before tables, so a TOML plaintext that has a table before a plain value is encrypted to a file whose text decrypts in another order and fails its MAC check; maps in values-first order at every level are not affected.", "quantifier": "existence; every map in values-first order for the positive part", "why_tests_cant": "Depends on document order of arbitrary maps.", "anchors": ["crates/lib/src/file/format/toml/mod.rs: serialize_to_string", "crates/lib/src/file/format/toml/mock.rs", "crates/lib/src/file/metadata/mac/decrypted.rs: compute"]}
{"id": "C32", "title": "The builder refuses to create an unreadable file", "statement": "Encrypting without any key id fails; a successful build contains every given key id exactly once and each unit wraps the file's data key. The units are in the order in which their key ids were given.", "quantifier": "every builder", "why_tests_cant": "All key lists, with duplicates.", "anchors": ["crates/lib/src/file/builder/integration_metadata.rs", "crates/lib/src/file/builder/core.rs: encrypt"]}
{"id": "C33", "title": "First matching creation rule decides", "statement": "When encrypting, only the first creation rule whose path_regex matches the file path (empty for stdin) is applied: its keys are appended after the argument keys and its partial encryption is used only if no argument gave one; without a matching rule nothing is added.", "quantifier": "every configuration and argument combination", "why_tests_cant": "All rule lists.", "anchors": ["crates/cli/src/args/encrypt.rs: merge_config", "crates/cli/src/args/misc_args.rs"]}
{"id": "C34", "title": "The configured mac_only_encrypted is never applied by encrypt", "statement": "The encrypt command line flag is always present after argument parsing (false when absent), so a creation rule's mac_only_encrypted never takes effect through the CLI, although the merge would apply it to an absent argument.", "quantifier": "every configuration and command line", "why_tests_cant": "Interplay of argument parser default and merge.", "anchors": ["crates/cli/src/args/encrypt.rs:14-15,38-40"]}
{"id": "C35", "title": "Refresh converges", "statement": "If the first matching creation rule already describes the file (same settings and the same key sets) or no rule matches, refresh outputs the file text unchanged. Otherwise the output has exactly the rule's keys, partial encryption setting and mac_only_encrypted (false counting as absent) and decrypts to the same map, and a second refresh is a no-op unless the rule sets mac_only_encrypted to false.", "quantifier": "every file and configuration", "why_tests_cant": "All files and rule lists; idempotence over two runs.", "anchors": ["crates/cli/src/cli/refresh.rs", "crates/cli/src/config/creation_rule.rs: implies_metadata", "crates/cli/src/integration_keys.rs: implies_integration_metadata"]}
{"id": "C36", "title": "Format selection", "statement": "The format is the explicit argument if given, otherwise the extension of the file name compared without case (yaml, yml, json, toml), where empty components and '.' after the name do not count, otherwise there is an error.", "quantifier": "every path and argument", "why_tests_cant": "All paths.", "anchors": ["crates/cli/src/cli/common.rs: get_format", "crates/cli/src/args/misc_args.rs: Format"]}
{"id": "C37", "title": "Failing commands do not touch files", "statement": "If encrypt, decrypt, refresh, keys add, keys remove or edit fails before its final write, the file system is unchanged; without in-place only edit and keys write a file, and only the given one. A failing command prints nothing, unless what fails is printing: with a closed pipe as standard output a command that would succeed by printing panics after a part of the text, and otherwise the pipe makes no difference.", "quantifier": "every command, file system, input and failure point", "why_tests_cant": "All failure points.", "anchors": ["crates/cli/src/cli/encrypt.rs", "crates/cli/src/cli/decrypt.rs", "crates/cli/src/cli/refresh.rs", "crates/cli/src/cli/keys.rs", "crates/cli/src/cli/edit.rs", "crates/cli/src/cli/common.rs"]}
{"id": "C38", "title": "In-place writes are not crash safe", "statement": "There is a crash point during the final write at which the file holds neither the old nor the new content; before the write starts and after it ends it holds one of them.", "quantifier": "every crash point", "why_tests_cant": "Crash points cannot be sampled exhaustively.", "anchors": ["crates/cli/src/cli/common.rs: write_or_print", "crates/cli/src/cli/keys.rs", "crates/cli/src/cli/edit.rs"]}
{"id": "C39", "title": "An edit that is cancelled changes nothing; one without changes rewrites the same file", "statement": "If the editor session is interrupted the encrypted file is left as it is. If the edited text parses to the same map, the written file is identical as a document, given C11's condition.", "quantifier": "every file and editor behaviour", "why_tests_cant": "All interaction histories.", "anchors": ["crates/cli/src/cli/edit.rs"]}
{"id": "C40", "title": "AWS key ids round-trip", "statement": "Displaying and re-parsing an AWS KMS key id gives the same key id when partition and account id are present; when one of them is missing the displayed text parses to a different key id or fails.", "quantifier": "every key id", "why_tests_cant": "All identifiers.", "anchors": ["crates/lib/src/integration/aws_kms/key_id.rs", "crates/lib/src/integration/aws_kms/key_arn.rs"]}
{"id": "C41", "title": "Private keys are collected from both sources in order", "statement": "The private keys considered are those of the environment variable, in order, followed by those of the key file, one per non-blank trimmed line; any key that does not parse makes the retrieval fail, also an empty variable.", "quantifier": "every environment and key file content", "why_tests_cant": "All texts.", "anchors": ["crates/lib/src/integration/core.rs"]}
{"id": "C42", "title": "Config lookup", "statement": "The configuration is read from the argument path if given, else from ROPS_CONFIG if set, else from the nearest ancestor directory containing .rops.toml, else it is empty; a missing or malformed chosen file is an error rather than a fall-through.", "quantifier": "every directory depth and file system", "why_tests_cant": "All directory depths.", "anchors": ["crates/cli/src/config/retrieve.rs"]}
{"id": "C43", "title": "The metadata document round-trips", "statement": "Serialising the metadata to its document fields and reading them back gives the same metadata: integration units in order, dates, MAC text, partial encryption setting and mac_only_encrypted. Dates are written as in RFC 3339 in UTC, with none, three, six or nine digits below the second, as few as represent them.", "quantifier": "every metadata value", "why_tests_cant": "All unit lists.", "anchors": ["crates/lib/src/file/metadata/core.rs", "crates/lib/src/file/metadata/integration/units.rs", "crates/lib/src/file/metadata/integration/unit.rs"]}
{"id": "C44", "title": "A top level key named sops makes the file unreadable", "statement": "A plaintext whose top level contains the key \"sops\" is accepted for encryption but the resulting document cannot be parsed as a rops file; without such a key the document of a file parses back to the same map and metadata.", "quantifier": "every file; existence for the negative part", "why_tests_cant": "All maps.", "anchors": ["crates/lib/src/file/core.rs: RopsFile"]}
{"id": "C45", "title": "Histories of operations preserve the secret map", "statement": "After any history of creating, editing, adding keys and removing keys (each step successful), decrypting yields exactly the map last set.", "quantifier": "every history", "why_tests_cant": "Unbounded histories.", "anchors": ["crates/lib/src/file/core.rs", "crates/lib/src/file/builder/core.rs", "crates/cli/src/cli/keys.rs", "crates/cli/src/cli/edit.rs"]}
{"id": "C46", "title": "AWS private key syntax", "statement": "A private key text of the form profile.id.secret with no '.' inside the parts is read as exactly these parts; a text with fewer than three parts is rejected; any further part is silently dropped.", "quantifier": "every text", "why_tests_cant": "All texts.", "anchors": ["crates/lib/src/integration/aws_kms/private_key.rs"]}
{"id": "C47", "title": "Encrypted files show only shape, types, lengths and plaintext values", "statement": "With a cipher whose output depends on the plaintext only through its length, two maps that agree on their keys and nesting, on the types and byte lengths of their values, and on the values the partial encryption setting leaves in plaintext are encrypted to the very same file (same random draws), for creation and for re-encryption with saved parameters, provided the reuse pattern of saved nonces agrees. So an encrypted file shows nothing else about the secrets.", "quantifier": "every pair of maps, every setting, every file and every random tape", "why_tests_cant": "A statement about pairs of runs over all secrets; a test compares two particular files.", "anchors": ["crates/lib/src/file/map/encrypt.rs: encrypt, encrypt_with_saved_nonces", "crates/lib/src/file/map/value/core.rs: encrypt", "crates/lib/src/file/metadata/mac/decrypted.rs: compute", "crates/lib/src/file/builder/core.rs: encrypt"]}
{"id": "C48", "title": "Encrypted Booleans can be read without a key", "statement": "For every length preserving cipher there is a function of the ciphertext alone that tells every encrypted Boolean value: 'True' has four bytes and 'False' five.", "quantifier": "every key, nonce and path", "why_tests_cant": "A statement about all keys.", "anchors": ["crates/lib/src/file/map/value/core.rs: as_bytes, encrypt", "crates/lib/src/cryptography/cipher/aes256_gcm.rs"]}
{"id": "C49", "title": "Encrypting an encrypted file again destroys it", "statement": "`rops encrypt --in-place` on a file that is already encrypted succeeds, as on any other document, if there are keys and the process can encrypt for each of them. For JSON and YAML the result is not read as an encrypted file, so every other command fails on it for everyone. For TOML (without --mac-only-encrypted) the result is read but no one can decrypt it, because the MAC covers metadata that was overwritten (up to hash collisions).", "quantifier": "every encrypted file, configuration, recipients and environment", "why_tests_cant": "Tests encrypt plaintext files only; here every already encrypted text is covered.", "anchors": ["crates/cli/src/cli/encrypt.rs: encrypt", "crates/lib/src/file/core.rs: RopsFile", "crates/lib/src/file/builder/core.rs: encrypt"]}
{"id": "C50", "title": "encrypt then decrypt on the command line restores the document", "statement": "`rops encrypt --in-place` followed by `rops decrypt --in-place` by any recipient leaves a document with the same keys, order, nesting and scalars (dates become texts), if the document has no top-level key sops, holds representable values and, for TOML, has values before tables.", "quantifier": "every document, format, rule, set of recipients and process environment", "why_tests_cant": "End-to-end over all documents and configurations.", "anchors": ["crates/cli/src/cli/encrypt.rs: encrypt", "crates/cli/src/cli/decrypt.rs: decrypt", "crates/lib/src/file/builder/core.rs", "crates/lib/src/file/core.rs"]}
{"id": "C51", "title": "Over any sequence of commands the document and recipients are what was asked", "statement": "After any sequence of encrypt, keys add, keys remove, refresh and edit commands by any processes, each successful, a recipient decrypts exactly the last document written; keys add adds exactly the given keys, keys remove removes exactly the given keys, replaces the data key and does not change the last modification date; a process with no private key of a recipient gets MissingDataKey and nothing is written or printed.", "quantifier": "every sequence of commands of any length", "why_tests_cant": "Unbounded sequences of commands over all documents.", "anchors": ["crates/cli/src/cli/keys.rs: add_keys, remove_keys", "crates/cli/src/cli/edit.rs: edit", "crates/cli/src/cli/refresh.rs: refresh", "crates/lib/src/file/core.rs: add_keys, remove_integration_key"]}
{"id": "C52", "title": "Commands at the same time: the last writer wins, and an open edit undoes a key removal", "statement": "What a successful command leaves in its file does not depend on what other commands wrote there after it read; so of two overlapping commands the last writer wins. In particular an edit that was open while a key was removed restores the removed key, whose owner then reads the secrets edited after the removal.", "quantifier": "every pair of overlapping commands, every file", "why_tests_cant": "Needs interleavings of processes.", "anchors": ["crates/cli/src/cli/edit.rs: edit_encrypted_file", "crates/cli/src/cli/keys.rs: remove_keys"]}
{"id": "C53", "title": "Requests to AWS KMS use the profile's first private key and only part of the ARN", "statement": "A data key is encrypted (decrypted) with KMS exactly when a private key has the profile of the key id and KMS accepts the request the first such key signs, in the ARN's region, for the last part of the ARN's resource; the partition, service, account and resource path are ignored. A refusal is an error, not a skip, and a successful answer without content a panic. A process with a private key for one recipient gets the data key if KMS answers all of its requests.", "quantifier": "every key id, private key list, data key, KMS behaviour", "why_tests_cant": "Needs KMS credentials and every possible answer of the service.", "anchors": ["crates/lib/src/integration/aws_kms/core.rs: encrypt_data_key, decrypt_data_key, find_client"]}
{"id": "C54", "title": "Creation dates of units are those of the unit, not of the data key", "statement": "A new unit of a KMS key carries the time of its making in whole seconds, one of an age key carries none; adding keys dates only the units of the added keys. Adding a key that is there already wraps the data key again and replaces its unit and date. Removing a key makes a new data key but keeps the dates of the remaining units, so afterwards every date is from before the data key was made.", "quantifier": "every list of keys, every clock, every metadata", "why_tests_cant": "Depends on the clock at each step and on every position of a failure.", "anchors": ["crates/lib/src/file/metadata/integration/unit.rs: new", "crates/lib/src/file/metadata/integration/created_at.rs: now", "crates/lib/src/file/metadata/core.rs: remove_integration_key"]}
{"id": "C55", "title": "Which inputs end the program with a panic", "statement": "Reading an encrypted value panics exactly for texts whose iv or tag stands for too many bytes; reading an ARN exactly for resource names of AWS whose resource has an invalid last part or parent path. Decrypting a file panics exactly when reading or using the private keys does, when its map has such a text, when the stored MAC differs and is not UTF-8, or when the output format cannot hold a value. Changing the type tag of a secret \"inf\" needs no key and makes decryption to JSON panic.", "quantifier": "every text, file, environment", "why_tests_cant": "An exact characterisation needs all inputs; panics are found by tests one at a time.", "anchors": ["crates/lib/src/file/map/value/encrypted.rs: from_str", "crates/lib/src/integration/aws_kms/key_arn.rs: from_str", "crates/lib/src/file/core.rs: decrypt, validate_mac", "crates/lib/src/file/format/json/mod.rs: from_internal_value"]}
{"id": "C56", "title": "`rops encrypt` shows of secrets only their types and lengths", "statement": "With a cipher whose output depends on the plaintext only through its length, two runs of `rops encrypt` that find documents which agree on keys, nesting, types and byte lengths of their values and on the values left in plaintext print and write exactly the same.", "quantifier": "every command line, configuration, format and pair of documents", "why_tests_cant": "Noninterference relates pairs of runs over all documents.", "anchors": ["crates/cli/src/cli/encrypt.rs: encrypt", "crates/lib/src/file/builder/core.rs: encrypt"]}
{"id": "C57", "title": "A file for age recipients proves nothing about who made it", "statement": "Making a file for age recipients does not depend on the private keys of the process. So whoever sees an encrypted file can replace it by one for the same recipients with any content, and every recipient decrypts the replacement without error.", "quantifier": "every file, content, setting, recipient and process", "why_tests_cant": "A statement about every forger and every recipient.", "anchors": ["crates/lib/src/file/builder/core.rs: encrypt", "crates/lib/src/integration/age.rs: encrypt_data_key", "crates/lib/src/file/core.rs: decrypt"]}
{"id": "C58", "title": "What a command line says", "statement": "A command line is accepted exactly if its words spell a subcommand and items it knows (options in any of clap's spellings, flags, files, everything after --), each non-repeatable item at most once, at most one setting of partial encryption, and values of the right syntax; the resulting command is determined by the values given to each option. Neither the order of different options nor their spelling matters, keys accumulate in order, and every command can be said, whatever characters its values begin with. The documented space separated list of keys is not accepted: a second word is the file. A line that says no command has no effect.", "quantifier": "every list of words", "why_tests_cant": "The claim is about all spellings and orders of all options.", "anchors": ["crates/cli/src/args/core.rs: CliArgs, CliSubcommand", "crates/cli/src/args/encrypt.rs: EncryptArgs", "crates/cli/src/args/misc_args.rs: PartialEncryptionArgs, Format", "crates/cli/src/args/keys.rs: KeyInputArgs", "crates/cli/src/integration_keys.rs: IntegrationKeys", "crates/cli/src/run.rs: run"]}
{"id": "C59", "title": "Which texts are configurations", "statement": "A text is read as a configuration exactly if it is a TOML document with the entry creation_rules, a sequence each element of which describes the rule at its place: path_regex is required and a valid pattern, mac_only_encrypted, partial_encryption (a table with a single valid setting) and integration_keys (lists of key ids) are optional. A rule and its keys are tables or, as serde allows, arrays of the values in the order of the struct; an array without setting or flag is no rule. The order of fields does not matter. One invalid rule makes the whole configuration invalid. Fields of other names, misspelt ones too, are not noticed.", "quantifier": "every text, document and configuration", "why_tests_cant": "An exact description of the accepted documents quantifies over all documents.", "anchors": ["crates/cli/src/config/core.rs: Config", "crates/cli/src/config/creation_rule.rs: CreationRule", "crates/cli/src/config/retrieve.rs: retrieve_impl", "crates/cli/src/integration_keys.rs: IntegrationKeys"]}
{"id": "C60", "title": "Which documents are metadata", "statement": "A document is read as the metadata of a file exactly if each of its entries describes the part of its name: the units of each service (of several units for one key the last counts, at the place of the first), the date, the MAC, the flag and the setting (the first entry named like one, dropped if it is not valid). A text is an encrypted file exactly if it is the text of a document with such metadata under sops.", "quantifier": "every text, document and metadata", "why_tests_cant": "An exact description of the accepted documents quantifies over all documents.", "anchors": ["crates/lib/src/file/metadata/core.rs: RopsFileMetadata", "crates/lib/src/file/metadata/integration/units.rs: IntegrationMetadataUnits", "crates/lib/src/file/metadata/integration/unit.rs: IntegrationMetadataUnit", "crates/lib/src/file/core.rs: RopsFile"]}
{"id": "C61", "title": "What error messages show", "statement": "Whoever can change an encrypted file can, without any key, make the error message of its decryption show any one of its secrets (by changing its type tag to bool; only True and False are excepted), in a form from which the secret can be read back, or the unsalted hash of one secret (by dropping the other values). The message of a MAC mismatch shows the computed MAC twice and never the stored one. A text given as AWS private key that lacks a part, and a variable that is not Unicode, are printed whole. Apart from bytes of a value tagged bool and the hash of all values, the messages of a failed decryption are made from the file and the private keys alone. If an encrypted file cannot be read at all, every command has no effect and says only 'deserialize error', whatever is wrong with the file; for a text that rops encrypt cannot read the message is that of the parsing library, which may quote it. A text that is not an age key is never shown.", "quantifier": "every file, map, secret, private key text, cipher and hash with the stated laws", "why_tests_cant": "That any secret of any file can be made to appear, and that nothing else does, quantifies over all files and all failures.", "anchors": ["crates/cli/src/main.rs: main", "crates/lib/src/file/core.rs: RopsFileFromStrError", "crates/lib/src/file/core.rs: validate_mac", "crates/lib/src/file/error.rs: RopsFileDecryptError", "crates/lib/src/file/map/value/core.rs: from_bytes, RopsValueFromBytesError", "crates/lib/src/file/map/value/encrypted.rs: decrypt, DecryptRopsValueError", "crates/lib/src/integration/aws_kms/private_key.rs: from_str", "crates/lib/src/integration/error.rs: IntegrationError"]}
{"id": "C62", "title": "Re-encryption shows nothing of the values", "statement": "If rops refresh encrypts a file anew, what it prints and writes is the same for any two files whose contents differ only in values to be encrypted under the rule, with equal types and byte counts; the old ciphertexts do not matter. The same holds for rops keys remove when some key is removed, for files with the same metadata apart from the MAC. So somebody with the old data key sees nothing but types and lengths. Assumed: under data keys made during the run the ciphertext depends on the plaintext only through its length.", "quantifier": "every pair of files, processes and command lines, every cipher that is opaque under the new data keys", "why_tests_cant": "Noninterference compares all pairs of runs with different secrets.", "anchors": ["crates/cli/src/cli/refresh.rs: refresh_rops_file_impl", "crates/cli/src/cli/keys.rs: remove_keys", "crates/lib/src/file/metadata/core.rs: remove_integration_key", "crates/lib/src/file/builder/core.rs: encrypt", "crates/lib/src/file/core.rs: encrypt"]}
{"id": "C63", "title": "What crashes the program", "statement": "Provided the age library does not panic, successful answers of KMS have content, paths are Unicode and JSON texts hold finite numbers, rops crashes only because of (0) a bad ARN in a key of AWS KMS given on the command line to a command that takes keys, (1) a bad ARN in the configuration it finds, (2) for commands other than encrypt, an overlong MAC text or a bad ARN in the metadata of the encrypted file it reads, or a panic when this is decrypted, (3) for edit, a variable EDITOR without a word, a fallback editor with a path that is not UTF-8, interrupts that are handled or ignored already, or no standard error to complain to, (4) a standard output that fails. In cases 0, 1 and 2 it has done nothing, in case 3 it has made and deleted its temporary file. Each of these does crash it; a configuration of case 1 crashes every command, also those that use no configuration. A file made by rops never is the cause.", "quantifier": "every process, command line, configuration, file, format, editor session and environment; every cipher, ARN syntax, age and KMS service with the stated laws", "why_tests_cant": "That no other input crashes any command quantifies over all texts, configurations, environments and editor sessions.", "anchors": ["crates/cli/src/run.rs: run", "crates/cli/src/config/retrieve.rs: read_fs_path_and_deserialize", "crates/cli/src/cli/common.rs: get_input_string, write_or_print", "crates/cli/src/cli/edit.rs: edit_encrypted_file", "crates/cli/src/args/misc_args.rs: From<PartialEncryptionArgs>", "crates/lib/src/integration/aws_kms/key_id.rs: from_str", "crates/lib/src/file/map/value/encrypted.rs: from_str", "crates/lib/src/file/core.rs: from_str", "crates/cli/src/cli/edit.rs: select_editor, edit_temp_file"]}
{"id": "C64", "title": "What becomes of an edit", "statement": "If rops edit succeeds after the editor left a document that can be parsed, what it writes or prints is the text of an encrypted file that holds exactly this document, with the data key, recipients and settings of the file that was opened. If the cipher does not fail, the file opens, the document can be represented and the file can be written, the command does succeed. If the document can be parsed but not represented (an integer too large, say), the command fails, prints nothing and leaves no file changed: what was edited is lost, without a chance to edit again.", "quantifier": "every process, file, format, editor session and document; every cipher with the stated laws", "why_tests_cant": "An edit may be any document after any number of failed attempts, in any format, with any saved nonces; tests try one edit of one file.", "anchors": ["crates/cli/src/cli/edit.rs: edit_encrypted_file", "crates/cli/src/cli/edit.rs: edit_temp_file", "crates/lib/src/file/core.rs: set_map", "crates/lib/src/file/core.rs: encrypt_with_saved_parameters"]}
{"id": "C65", "title": "Exactly which changes of the map are accepted", "statement": "Let someone without the data key change the map of an encrypted file and keep its metadata. If the changed file decrypts and contains no forged ciphertext, each of its values is either a plaintext value where the setting asks for plaintext, or an encrypted value of the file at a place with the same joined key path, with a type tag its bytes can be read as. A map of such values is accepted exactly when the concatenation of the hashed bytes is the same as before, or the two are a collision of the hash. So a value may be removed or inserted exactly when it is an empty string (or in plaintext under mac_only_encrypted), replaced exactly by one with the same bytes, and two neighbours of one list may be swapped exactly when both are repetitions of one text. Only if all values have one positive length is every reordering, addition and removal refused. The claim of the book that any addition, removal or reordering of unique values is denied is false.", "quantifier": "every file, key, format, setting and changed map; every lawful cipher and hash", "why_tests_cant": "The exact condition speaks of all changed maps at once; tests can only try single changes.", "anchors": ["crates/lib/src/file/metadata/mac/decrypted.rs: compute", "crates/lib/src/file/map/decrypt.rs", "crates/lib/src/file/core.rs: decrypt", "book/concepts.md: Compute MAC for encrypted values only"]}
{"id": "C66", "title": "Recipients and settings of a file are not authenticated", "statement": "Someone who can change a file but has no key can insert an age recipient of their choice with anything in place of the wrapped data key. Everyone who does not hold the identity of that recipient gets the same result from decryption as before. As soon as some other key is removed with rops keys remove, the file written can be decrypted by the holder of the inserted recipient. They can also replace the partial encryption setting by any other that treats the values present alike: the file still decrypts to the same map, and a value which the user then adds with rops edit at a path the new setting leaves out is written in plaintext. The value of mac_only_encrypted can be replaced exactly if the hashed bytes stay the same (or collide). So changed metadata need not break decryption, and recipients are not protected by the MAC.", "quantifier": "every file, format, setting, recipient, inserted unit, list of identities, key removal and edited document; every lawful cipher, hash and key service", "why_tests_cant": "The attack works for every file, every inserted text and every later removal or edit; a test shows one instance and cannot show that decryption never notices.", "anchors": ["crates/lib/src/file/metadata/core.rs: retrieve_data_key", "crates/lib/src/file/metadata/core.rs: remove_integration_key", "crates/lib/src/file/metadata/integration/core.rs", "crates/lib/src/file/metadata/partial_encryption.rs", "crates/cli/src/cli/edit.rs: edit_encrypted_file", "book/goals.md: directly modifying the metadata will most likely break its integrity"]}
{"id": "C67", "title": "Which keys a process needs to read and to write encrypted files", "statement": "rops decrypt succeeds exactly if its flags are acceptable and the process has a private key for one of the recipients; so does rops edit when the editor leaves a document the file can hold, which needs no access to the other recipients. rops encrypt succeeds exactly if its flags are acceptable, the text is a document that can be represented, at least one key is given or in the rule, and the process can encrypt for each of these keys. rops refresh succeeds exactly if no rule or one that describes the file already matches, or the process can read the file, the rule has a key, and the process can encrypt for each key of the rule. rops keys add succeeds exactly if the process finds the data key and can encrypt for each given key; if age keys are given its age private keys have to be readable. rops keys remove succeeds exactly if the process has a private key for a recipient that is left, and can encrypt for every recipient but the first removed one, also for those removed by the same command. So nobody loses access to a file by a successful removal, the last recipient cannot be removed, and the owner of an age key cannot revoke another key of a file that also has a KMS key without AWS credentials for the profile of the latter.", "quantifier": "every process, command line, configuration, file, format, set of recipients and private keys; every lawful cipher and key service", "why_tests_cant": "The conditions are exact for all combinations of recipients, given keys and private keys; tests run single combinations, most without any KMS.", "anchors": ["crates/cli/src/cli/keys.rs: add_keys, remove_keys", "crates/cli/src/cli/encrypt.rs", "crates/cli/src/cli/refresh.rs: refresh_rops_file_impl", "crates/lib/src/file/metadata/core.rs: remove_integration_key", "crates/lib/src/file/builder/integration_metadata.rs", "crates/lib/src/file/core.rs: add_integration_key", "crates/cli/src/cli/decrypt.rs: decrypt", "crates/cli/src/cli/edit.rs: edit_encrypted_file"]}
{"id": "C68", "title": "What a builder makes of its calls", "statement": "Whatever calls are made on a RopsFileBuilder and in whatever order and number, the file it makes has the partial encryption setting given last, has mac_only_encrypted exactly if this was called, and its recipients are the keys given for each integration, each once, in the order given; there is at least one recipient and every one gets the data key. Nothing else about the calls matters. A document that cannot be represented is refused before anything else; otherwise the builder reports missing keys exactly if no key was given, where an empty list counts as none.", "quantifier": "every sequence of builder calls, document, format, cipher, key service and environment", "why_tests_cant": "The existing tests call each method at most once; repetition, replacement and interleaving of calls are infinitely many sequences.", "anchors": ["crates/lib/src/file/builder/core.rs: with_partial_encryption, mac_only_encrypted, add_integration_key, add_integration_keys, encrypt", "crates/lib/src/file/builder/integration_metadata.rs: into_integration_metadata, missing_keys"]}
{"id": "C69", "title": "Conversion between formats", "statement": "A file may be decrypted to another format than its own and encrypted into another. Through any number of such conversions, with or without saved parameters and in different processes, the file keeps its recipients, encrypted data keys, settings and date, and decrypts to the same document, as long as every format passed through can hold the values; each such conversion succeeds if the cipher does and the data key is found. Decryption to JSON panics exactly if there is a float that is infinite or not a number. Decryption to TOML always succeeds, but texts \"null\" are read as nulls from then on: a file that passes through TOML is encrypted again without an error, and nobody can decrypt it if the MAC covers such a text.", "quantifier": "every file, sequence of conversions and formats, document, setting, process, lawful cipher, hash and key service", "why_tests_cant": "Tests convert single mock documents within one format; the sequences of formats, documents and processes are unbounded, and the loss shows only at the next decryption.", "anchors": ["crates/lib/src/file/core.rs: decrypt, decrypt_and_save_parameters, encrypt, encrypt_with_saved_parameters", "crates/lib/src/file/format/toml/mod.rs: decrypted_to_internal, decrypted_from_internal", "crates/lib/src/file/format/json/mod.rs: decrypted_from_internal", "crates/lib/src/file/format/map.rs"]}
{"id": "C70", "title": "What is said about a bad document", "statement": "Every text where an encrypted value is required is read as one, makes the program panic because its nonce or tag is too long, or is refused with exactly one message, which names what is wrong first: the \"ENC\" at its start, the opening or closing bracket, the cipher, or the first of the fields data, iv, tag and type (in this order) that is missing or unreadable. A document is refused with the message for the first of its items, in document order, that cannot be read: a key that is no string (YAML), an integer that does not fit, with its digits, a plaintext or a text that is no encrypted value where one is required. rops decrypt, encrypt and edit print this message and its sources; encrypt does so before it looks at any key. A command prints a message exactly if it fails.", "quantifier": "every text, document of the three formats, setting, file, process and library wording", "why_tests_cant": "Tests check single missing parts on a fixed text; the texts and documents with several defects at once, and their order, are unbounded.", "anchors": ["crates/lib/src/file/map/value/encrypted.rs: from_str", "crates/lib/src/file/format/map.rs: FormatToInternalMapError", "crates/lib/src/file/format/adapters.rs: decrypted_to_internal, encrypted_to_internal", "crates/lib/src/file/error.rs", "crates/cli/src/main.rs: main"]}
{"id": "C71", "title": "The texts of JSON documents", "statement": "A text is read as a JSON document exactly if it is one by the grammar of RFC 8259 (white space, escapes with surrogate pairs, numbers), with an object at the top and at most 127 levels of nesting; it is then read as the values that the grammar gives, where of a repeated key the last value stays at the place of the first (except a repeated top-level \"sops\", which is kept). The grammar gives one meaning at most. What is written is always such a text, and it is read as what was written if keys are distinct, the nesting is below the limit and floats are written as numbers that are read as these floats. What is read can be written and is then read as the same; in particular every document that comes from a text survives any number of times.", "quantifier": "every text, document, depth and reading and writing of floats", "why_tests_cant": "Tests parse a few mock documents; texts, escapes, nestings and repeated keys are unbounded.", "anchors": ["crates/lib/src/file/format/json/mod.rs: serialize_to_string, deserialize_from_str", "crates/lib/src/file/core.rs"]}
{"id": "C72", "title": "JSON files are restored byte for byte", "statement": "For JSON the histories of C51 and C52 need nothing of the syntax but how floats are read and written: a document that is read from a text, has no top-level key \"sops\", no key with a colon, and floats that survive being written and read, is encrypted to a text that is read as the encrypted file; after any number of changes of keys, refreshes, cancelled edits and edits, rops decrypt by a recipient gives exactly the text that is written for the document last encrypted or saved. A JSON file that is formatted as rops formats is the same, byte for byte, after rops encrypt -i and rops decrypt -i.", "quantifier": "every document, text, history of commands, process, configuration, recipient and cipher meeting its laws", "why_tests_cant": "Tests encrypt and decrypt one mock document in one process; documents and sequences of commands are unbounded.", "anchors": ["crates/cli/src/cli/encrypt.rs", "crates/cli/src/cli/decrypt.rs", "crates/cli/src/cli/edit.rs: edit_encrypted_file", "crates/cli/src/cli/keys.rs", "crates/cli/src/cli/refresh.rs", "crates/lib/src/file/format/json/mod.rs: serialize_to_string, deserialize_from_str", "crates/lib/src/file/core.rs"]}
{"id": "C73", "title": "Floats are kept, except by the JSON reader", "statement": "Parsing a float gives the nearest one, and the text that is printed for a float is read as this float, so the text that rops keeps of a float determines it. In JSON a finite float is written as a number that stands for it. serde_json without float_roundtrip reads a number exactly if its digits are at most 2^53 and it is scaled by at most 22 tens; a JSON file with such floats only is the same, byte for byte, after rops encrypt -i and rops decrypt -i. It is not so for all floats: a JSON file with the plaintext float 9.074340925238958 is encrypted without an error to a file that rops decrypt refuses, as its MAC is one of another float.", "quantifier": "every float, every text of digits, every document, process and cipher meeting its laws", "why_tests_cant": "There are 2^64 floats and unboundedly many texts; the tests use 1234.56789, which is short.", "anchors": ["crates/lib/src/file/map/value/core.rs: RopsFloat, from_bytes", "crates/lib/src/file/format/json/mod.rs: to_internal_number, from_internal_value, serialize_to_string, deserialize_from_str", "crates/lib/Cargo.toml", "crates/cli/src/cli/encrypt.rs", "crates/cli/src/cli/decrypt.rs"]}
{"id": "C74", "title": "What drifting floats do to JSON files", "statement": "In the text of an encrypted JSON file is found the same file, but each plaintext float is the one that is read for what was written for it. So the file is read as it was exactly if its plaintext floats are; encrypted floats are not at risk. Read from its text, it is decrypted exactly if the floats that are read add the same bytes to the hashed ones (or the hash collides). If exactly one plaintext float is read as another one, then the file cannot be decrypted any more, unless it has mac_only_encrypted set; with it, nothing is noticed, and the decrypted file has the other float.", "quantifier": "every JSON document read from a text, every encrypted file for it, every way of reading and writing floats (and the one of serde_json), every cipher and hash meeting their laws", "why_tests_cant": "It concerns every document with floats in any number and place; the tests use 1234.56789 only, which does not drift.", "anchors": ["crates/lib/src/file/core.rs: from_str, fmt, decrypt", "crates/lib/src/file/format/json/mod.rs: to_internal_number, from_internal_value, serialize_to_string, deserialize_from_str", "crates/lib/src/file/metadata/mac/decrypted.rs: compute"]}
{"id": "C75", "title": "AES-256-GCM and SHA-512, and what reusing the MAC nonce gives away", "statement": "AES-256-GCM with nonces of 32 bytes and SHA-512, computed bit by bit, meet what is assumed of the cipher and the hash; the cipher accepts exactly what it made, and refuses to encrypt only above 64 GiB. So with them only age and AWS KMS are trusted. Two tags made with one key and nonce for one text and associated data of the same length differ by a polynomial with public coefficients at the hash key of the data key. rops publishes such tags: when an edit changes the document but not the hashed bytes, the MAC is encrypted with the same nonce and another date. Who knows the hash key makes any other accepted text of the same length from an accepted one, moves encrypted values to any path of the same length without knowing them, and replaces values they know, without the data key.", "quantifier": "all keys, nonces, texts and associated data; every encrypted file and every edit that keeps the hashed bytes; all values and paths", "why_tests_cant": "Tests compare a few ciphertexts; that the tags of every such pair of versions are an equation for the key concerns all of them.", "anchors": ["crates/lib/src/cryptography/cipher/aes256_gcm.rs: encrypt, decrypt", "crates/lib/src/cryptography/hasher/sha512.rs: update, finalize", "crates/lib/src/file/metadata/mac/saved_mac_nonce.rs: get_or_create", "crates/lib/src/file/metadata/mac/decrypted.rs: encrypt_impl", "crates/lib/src/file/map/value/encrypted.rs: decrypt"]}
{"id": "C76", "title": "Dates are read as what they say, and written dates are read back", "statement": "The texts that are read as a date are exactly those of a date, a time and an offset from UTC (RFC 3339, with fewer digits and white space allowed) that exist in the calendar, and such a text is read as the one point in time that is the offset earlier. Every date read is written and read back as itself, also leap seconds and years of more than four digits. The date of an encrypted file can be rewritten without the data key in any time zone, in any such way and with any fraction of a second, and in no other way without the cipher accepting other associated data. With AES-256-GCM, SHA-512, floats, JSON texts and dates as they are, and only age and AWS KMS assumed to decrypt what they encrypt, a JSON file formatted as by rops with short floats is the same byte for byte after encrypt and decrypt in place.", "quantifier": "all texts, all dates of the years -262143 to 262142, all offsets; every encrypted file; every JSON file with short floats", "why_tests_cant": "Tests parse one date; which of all texts are dates, and that the calendar arithmetic is right at every month, leap year and offset, needs proof.", "anchors": ["crates/lib/src/file/timestamp.rs: Timestamp", "crates/lib/src/file/metadata/last_modified.rs: to_bytes", "crates/lib/src/file/metadata/integration/created_at.rs: IntegrationCreatedAt", "crates/lib/src/file/metadata/core.rs: RopsFileMetadata"]}
{"id": "C77", "title": "How hard forging is, and how few hash keys a reused nonce leaves", "statement": "The product of blocks in AES-256-GCM is the one of a field with 2^128 elements. So a changed text, or a text moved to other associated data, is accepted under the nonce of another one only if the hash key is one of the few that the change determines: no more than there are blocks, of 2^128. This holds for encrypted values, whatever is changed in them but the nonce and wherever they are moved; the same text is accepted with no other tag. But an edit that keeps the hashed bytes and so encrypts the MAC for another date with the same nonce leaves no more than eleven hash keys, and everything that decides between them is in the two versions of the file.", "quantifier": "all keys, nonces, texts, associated data and tags; all encrypted values and all changes of them; every encrypted file and every edit that keeps the hashed bytes", "why_tests_cant": "Tests change a byte and see an error; for how many of all keys a change is accepted is a statement about the whole field.", "anchors": ["crates/lib/src/cryptography/cipher/aes256_gcm.rs: decrypt", "crates/lib/src/file/map/value/encrypted.rs: decrypt", "crates/lib/src/file/metadata/mac/saved_mac_nonce.rs: get_or_create", "crates/lib/src/file/metadata/mac/decrypted.rs: encrypt_impl"]}
{"id": "C78", "title": "Which text stands for which float, and how far a float can drift in JSON", "statement": "A text is read as a float exactly if it is in the grammar of floats (a sign, digits with a point anywhere, an exponent, or the words for infinity and not-a-number in any case), and then as the nearest float, the even one of two, or as infinite with the same sign. What is kept and printed for a float is a decimal with as few digits as possible among all that are read as this float, without an exponent; JSON files hold a shortest decimal too, with an exponent exactly if it is less than 10^-5 or not less than 10^16, and otherwise with digits on both sides of a point, so that it never looks like an integer. What is read from a JSON file has the sign of the number and differs from the number by at most a part in 2^50 or the smallest float, and only numbers that reach 2^1024, as far as 50 binary digits tell, are out of range; so a float below 2^1023 that is written to JSON is read again, and has drifted by at most a part in 2^49 or two smallest floats.", "quantifier": "all texts, all numbers, all floats", "why_tests_cant": "There are 2^64 floats and infinitely many texts; that no shorter decimal exists and that the error never exceeds a bound are statements about all of them.", "anchors": ["crates/lib/src/file/map/value/core.rs: RopsFloat, from_bytes", "crates/lib/src/file/format/json/mod.rs: to_internal_number, from_internal_value, serialize_to_string, deserialize_from_str", "crates/lib/Cargo.toml"]}
{"id": "C79", "title": "What commands show of secrets", "statement": "With an opaque cipher (equal lengths of plaintexts give equal ciphertexts) and a hash of fixed size, everything a command prints, writes and answers is the same for two runs whose documents differ only in secrets of the same types and lengths. rops encrypt: for two texts given. rops refresh under a rule that is new to the file: for two files, also if their recipients, settings and data keys differ; nothing else of the old files is in the result. rops keys remove: for two files with the same metadata but for the MAC. rops edit: for two edits of one file, if both or none change the document and the same values, and the MAC, are as before; what is not in this list is shown: whether something changed, and which values.", "quantifier": "every process, command line, configuration, format, pair of documents, pair of files and pair of edits, and every opaque cipher", "why_tests_cant": "Noninterference compares all pairs of runs; a test sees single runs, and cannot show that nothing but types and lengths is in the output.", "anchors": ["crates/cli/src/cli/encrypt.rs: encrypt_rops_file_impl", "crates/cli/src/cli/refresh.rs: refresh_rops_file_impl", "crates/cli/src/cli/keys.rs: remove_key_impl", "crates/cli/src/cli/edit.rs: edit_encrypted_file", "crates/lib/src/file/core.rs: encrypt_with_saved_parameters"]}
{"id": "C80", "title": "The cipher and the hash are those of their standards", "statement": "The block cipher of the model is AES-256 as FIPS 197 defines it: the S-box is the inverse in the field of 256 elements (zero for zero) followed by the affine map, rounds substitute, shift rows, mix columns and add the round keys of the key expansion, which exists and is unique. The hash is SHA-512 as FIPS 180-4 defines it for every message below 2^128 bits: padding, message schedule, rounds, and constants that are the first 64 bits of the fractional parts of the roots of the first primes. The cipher is Galois/Counter Mode as SP 800-38D defines it for every nonce that does not have twelve bytes: hashing in the field of polynomials over two elements modulo X^128+X^7+X^2+X+1, counters modulo 2^32, length blocks, and a tag of 16 bytes. So every encrypted value of a file is the AES-256-GCM encryption of the bytes of a value for its key path, and its MAC that of the hex text of the SHA-512 digest of the covered bytes for its date.", "quantifier": "all keys of 32 bytes; all blocks, nonces, texts and associated data up to 64 GiB; all messages; all encrypted files", "why_tests_cant": "Test vectors sample a few keys and texts; agreement with the standards is for all of them.", "anchors": ["crates/lib/src/cryptography/cipher/aes256_gcm.rs: cipher, encrypt, decrypt", "crates/lib/src/cryptography/hasher/sha512.rs: new, update, finalize", "crates/lib/src/file/map/value/core.rs: encrypt", "crates/lib/src/file/metadata/mac/decrypted.rs: encrypt_impl"]}
{"id": "C81", "title": "The texts of TOML documents", "statement": "With the syntax of TOML given character by character (quotes, escapes, headers, arrays of tables, keys in parts, comments, integers in four bases, rules on tables that are defined more than once): every document with distinct keys, fewer than 80 levels, and floats and dates that survive is read from the text that is written for it as it was, with the entries of each table that have sections of their own moved behind the others. Every float of Rust survives, also infinite ones and NaN. In whatever is read no key is twice in a table. A document that was read is read again in its order, and from then on neither it nor its text changes. Beyond 80 levels this fails: a text with long headers and long keys is read, but what is written for it is refused.", "quantifier": "all documents, all texts, all floats, all readers of dates", "why_tests_cant": "The tests compare one sample document with one sample text. They cannot cover the choice of quotes for all texts, headers that are left out, tables that are reordered, or all floats.", "anchors": ["crates/lib/src/file/format/toml/mod.rs: serialize_to_string", "crates/lib/src/file/format/toml/mod.rs: deserialize_from_str", "crates/lib/src/file/format/toml/mock.rs: mock_format_display"]}
{"id": "C82", "title": "TOML files through any commands, with the syntax of TOML", "statement": "With the syntax of TOML given character by character and the floats of Rust: an encrypted TOML file for a document that was read from a text is read from the text written for it; through any sequence of encrypting, adding and removing keys, refreshing, cancelled and finished edits the file keeps its document; decrypting gives exactly the text that is written for this document with texts in place of dates. A file that is formatted as rops formats and has no dates is the same, byte for byte, after encrypt -i and decrypt -i. A date does not survive: it becomes a text. The document must have no top-level key sops, no key with a colon, fewer than 80 levels, and in each table values before sections.", "quantifier": "all documents read from texts, all histories of commands, all processes, keys and nonces", "why_tests_cant": "The tests encrypt and decrypt one sample document. They never write a file with its metadata and read it again for other documents, nor run sequences of commands.", "anchors": ["crates/lib/src/file/format/toml/mod.rs: encrypted_from_internal", "crates/lib/src/file/format/toml/mod.rs: decrypted_to_internal", "crates/lib/src/file/format/toml/mod.rs: decrypted_from_internal", "crates/cli/src/cli/encrypt.rs: encrypt"]}
{"id": "C83", "title": "Which texts are read as TOML documents", "statement": "A text is read as a TOML document exactly if the grammar of TOML 1.0.0, given as relations between statements and texts (white space, comments, both ends of lines, bare and quoted keys in parts, four kinds of quotes with escapes and folded lines, integers in four bases with underscores, floats, arrays over lines, inline tables, headers, at most 80 levels), derives it from statements that can be put together; the document is what they say. No text stands for two sequences of statements, and two texts of the same statements are read alike, whatever their layout, quotes, escapes and bases. A text with a control character other than tabulator and ends of lines is refused.", "quantifier": "all texts, all statements, all readers of floats and dates that refuse the empty text as a date", "why_tests_cant": "Tests read one sample document as TOML. Which texts are accepted or refused, and that nothing is ambiguous, is about all texts.", "anchors": ["crates/lib/src/file/format/toml/mod.rs: deserialize_from_str"]}
{"id": "C84", "title": "What the statements of a TOML document say", "statement": "The document read from a TOML text holds exactly what its statements say, place by place, with no tables built: the value of each entry is at the place of its key, below the last header, in the last table of each array of tables on the way (an array has as many tables as headers for it since the last header for an array around it); headers and keys in parts make the tables on their ways; nothing else is in the document, and at each place is one value. Statements leave only the order of keys open. No entry is for a place of which something was said before, so none replaces another. Inline tables hold what their entries say, too.", "quantifier": "all texts of the grammar of TOML, all their statements, all places", "why_tests_cant": "Tests read one sample document as TOML. That values are never lost, replaced or put into another table is about all documents.", "anchors": ["crates/lib/src/file/format/toml/mod.rs: deserialize_from_str"]}
{"id": "C85", "title": "Which TOML statements fit together", "statement": "A text by the grammar of TOML is read exactly if its statements fit together, told from a sketch of what each path leads to so far (nothing, a value, an array of tables, or a table with or without a header and made by keys or not): an entry is for a path to nothing; the parts of its key before the last lead to no value and no table with a header, and end at nothing or at a table made by keys; a header leads over no value, a table gets one header and none if made by keys, and an array of tables stays one. The same decides inline tables.", "quantifier": "all texts of the grammar of TOML, all sequences of statements", "why_tests_cant": "Duplicate keys, reopened tables and mixed arrays come in unboundedly many combinations; tests try none of them.", "anchors": ["crates/lib/src/file/format/toml/mod.rs: deserialize_from_str"]}
{"id": "C86", "title": "The dates of TOML documents", "statement": "A TOML document may hold exactly the dates, times and moments of the calendar that TOML takes from RFC 3339 (four digits of year, months and days as they are in leap years, leap seconds, fractions cut to nanoseconds, less than a day to UTC, and that only with date and time), in any of their spellings (T, t or a space between, z or Z). No text stands for two; each is read again from the one text that is written for it, the shortest of its texts with T before the time, Z for UTC and + before no distance to it; no such text is a number or a truth value; and the text that takes the place of a date in a decrypted file is still one of that date. Hence, with nothing assumed of floats or dates, documents that were read and written once change no more.", "quantifier": "all texts, all dates, all TOML documents", "why_tests_cant": "There are some 10^20 moments and unboundedly many spellings; tests have no date at all.", "anchors": ["crates/lib/src/file/format/toml/mod.rs: deserialize_from_str", "crates/lib/src/file/format/toml/mod.rs: decrypted_to_internal"]}
{"id": "C87", "title": "Scalars in YAML keep their types", "statement": "In a YAML file plain scalars have no types: what they look like says whether they are null, a truth value, an integer, a float or a text. Each plain scalar is read as exactly one value by these looks (words; integers to the bases 2, 8, 10 and 16 without zeros before them, refused if they have 65 to 128 bits; finite floats as in Rust and the words of YAML for the others), and everything else is the text that it is. A text is written so that it may become a plain scalar exactly if it is read as itself then, is on one line, is no truth value of YAML 1.1 and no number with zeros before it; numbers are written so that they are read as the same numbers. Hence, if the layout of documents (libyaml) is read as it is written, every document that was read from some text is read, with all types and values, from the text that is written for it.", "quantifier": "all texts, all values, all layouts, all YAML documents", "why_tests_cant": "There are unboundedly many texts that look like other values, and tests try a handful.", "anchors": ["crates/lib/src/file/format/yaml/mod.rs: serialize_to_string", "crates/lib/src/file/format/yaml/mod.rs: deserialize_from_str"]}
{"id": "C88", "title": "YAML files, with the scalars of YAML", "statement": "Provided that the layout of YAML documents is read as it is written (for documents without tags, with texts as keys and not too deep), an encrypted YAML file is read back from its text; whatever commands it went through since its document was encrypted or edited, rops decrypt by a recipient gives exactly the text that is written for this document without its tags, so that every text, number, truth value and null is of the type that it was; and a file that is formatted as rops formats it is the same, byte for byte, after encrypt -i and decrypt -i.", "quantifier": "all YAML documents read from any text without a top-level key \"sops\" and keys with ':', all layouts that keep trees of scalars, all histories of commands", "why_tests_cant": "Documents, histories and the texts that look like other values are unbounded; the tests have one document.", "anchors": ["crates/lib/src/file/format/yaml/mod.rs: decrypted_to_internal", "crates/lib/src/file/format/yaml/mod.rs: encrypted_from_internal", "crates/cli/src/cli/decrypt.rs: decrypt"]}
{"id": "C89", "title": "The editor that is run", "statement": "$EDITOR is read as a shell reads words: white space between them, comments from '#' where a word could begin, single quotes, double quotes (in which a backslash escapes only '$', '`', '\"', itself and the end of a line), and backslashes. A text has at most one list of words, any program with any arguments has a text, and a text with an open quote or a last backslash is refused. The editor is the first word with the others as its arguments or, if $EDITOR is not set, the first of vim, nano and vi that there is; the path of the temporary file is added as the last argument, as it is, and nothing else is run on it. The program panics exactly if the text is white space and comments only.", "quantifier": "all values of $EDITOR, all lists of words, all paths", "why_tests_cant": "Quoting is about unboundedly many texts; the tests of the program do not run editors.", "anchors": ["crates/cli/src/cli/edit.rs: select_editor", "crates/cli/src/cli/edit.rs: edit_temp_file"]}
{"id": "C90", "title": "The layout of YAML documents", "statement": "A YAML document without tags is read from the text that rops writes for it - with plain, quoted and literal texts, keys of any kind and length, and mappings and sequences within each other - if it has at most 128 levels, and is refused if it has more; different documents have different texts, and the texts are lines of printable characters. Whatever is read from any text is read again, the same, from the text that is written for it. However a YAML file is laid out, with comments and other indentation, after rops encrypt -i and rops decrypt -i the same document is read from it; a file that is formatted as rops formats is then the same, byte for byte, where only age, AWS KMS and the clock are assumed to work.", "quantifier": "all YAML documents, all texts that are read, all keys of recipients, nonces and data keys", "why_tests_cant": "Documents, and the texts that need quotes or look like structure, are unbounded; the tests have one document.", "anchors": ["crates/lib/src/file/format/yaml/mod.rs: serialize_to_string", "crates/lib/src/file/format/yaml/mod.rs: deserialize_from_str", "crates/cli/src/cli/decrypt.rs: decrypt"]}
{"id": "C91", "title": "The program with all of its parts", "statement": "With AES-256-GCM, SHA-512, the floats of Rust, the dates of chrono and the texts of JSON, YAML and TOML in place, and with nothing assumed but that age and AWS KMS decrypt what they encrypt, that keys and nonces have 32 bytes and that the clock gives dates: whatever commands a file of any of the three formats went through since its document was encrypted or edited, rops decrypt by a recipient gives exactly the text that is written for this document, with texts in place of the dates of TOML, and the document is read from this text. However a file is laid out, the same document is read from it after encrypt -i and decrypt -i; if it is formatted as rops formats and has no dates of TOML, it is the same, byte for byte.", "quantifier": "all documents that are read from texts of the three formats (no key with a colon, no top-level key \"sops\", floats of few digits in JSON, keys that are texts in YAML, tables after other values in TOML), all histories of commands, all keys, nonces and dates", "why_tests_cant": "Documents, layouts and histories are unbounded; the tests check each part on one document.", "anchors": ["crates/cli/src/cli/encrypt.rs: encrypt", "crates/cli/src/cli/decrypt.rs: decrypt", "crates/lib/src/file/core.rs: decrypt"]}
{"id": "C92", "title": "Which texts are YAML documents", "statement": "A text is read as a YAML document exactly if a grammar of lines and columns says it is a text of this document: comments and blank lines anywhere, any indentation, items of a sequence at the column of their key or further right, plain, quoted and literal scalars, nested sequences and mappings within brackets on one line, keys of any scalar kind and at most 1024 characters, distinct keys, at most 128 levels, a start mark, line breaks of any system. Texts that are in the grammar for no document are refused; no text is in it for two. What rops writes for a document is a text of this document and no other, and comments before a document do not change it.", "quantifier": "all texts and all documents (of the part of YAML without flow collections over several lines, tags, anchors, folded scalars and quoted or plain scalars over several lines)", "why_tests_cant": "Texts are unbounded; the tests read one text per construct that occurs in the example files.", "anchors": ["crates/lib/src/file/format/yaml/mod.rs: deserialize_from_str", "crates/lib/src/file/format/yaml/mod.rs: serialize_to_string"]}
{"id": "C93", "title": "Encrypted values stand in files as they are, each on one line", "statement": "In an encrypted file the text ENC[...] of the MAC and of every encrypted value stands verbatim on one line, neither escaped nor folded: between double quotes in JSON and TOML, unquoted at the end of its line and after a space in YAML. (In TOML a value under the top level key \"sops\" is replaced by the metadata.) So tools that look at files line by line find every encrypted value.", "quantifier": "all encrypted maps of any shape and size, all keys, all ciphertexts, nonces and tags, all metadata, all three formats", "why_tests_cant": "The quoting and layout rules of three writers depend on the characters of the text and on where it stands; tests check single documents.", "anchors": ["crates/lib/src/file/format/yaml/mod.rs: encrypted_from_internal", "crates/lib/src/file/format/json/mod.rs: encrypted_from_internal", "crates/lib/src/file/format/toml/mod.rs: encrypted_from_internal", "crates/lib/src/file/map/value/encrypted.rs: Display"]}
{"id": "C94", "title": "How YAML documents are written", "statement": "The text that is written for a YAML document without tags has exactly these lines. A text is a plain scalar if it can be one, is read as itself, is no truth value of YAML 1.1 and no number with zeros first. Else it is in single quotes if it has one line and nothing in it must be escaped, a literal scalar if it has line breaks, nothing else in it must be escaped and no space ends a line of it, and in double quotes otherwise, with each character as it is, by its letter, or by its number in the shortest of the three ways, in capitals. The header of a literal scalar has a 2 exactly if it begins with a space or an empty line, and a sign for how it ends. Integers are decimal, without zeros first; floats are a shortest decimal. Keys are before their colon unless they are collections, have line breaks or more than 128 bytes, and then after a question mark. Items are at the column of the mapping that they are in, entries two columns after it. If there are no floats this determines the text. No line ends with a space.", "quantifier": "for all documents without tags", "why_tests_cant": "There are infinitely many documents, and which style a text gets depends on all of its characters and on what it could be mistaken for; tests sample a few texts.", "anchors": ["crates/lib/src/file/format/yaml/mod.rs: serialize_to_string", "crates/lib/src/file/core.rs: RopsFile"]}
{"id": "C95", "title": "An edit changes few lines", "statement": "After an edit each value that was in the file under the same keys is written as before: with the ciphertext that it had, or in plaintext; and of the metadata only the date and the MAC are others. So if an edit changes only values, k of them, then the JSON file has as many lines as before and no more than k + 2 of them are different. The same is true of YAML and TOML files if no text of several lines is among the changed values that are in plaintext. (Assumed: values of the file with the same key path and the same plaintext have the same nonce, which is the case if there are no two such.)", "quantifier": "for all files, all keys and all edits that change only values", "why_tests_cant": "That a diff is small is a statement about each line of each file; tests compare single files, and none of the tests compares the texts before and after an edit.", "anchors": ["crates/lib/src/file/core.rs: decrypt_and_save_parameters, encrypt_with_saved_parameters", "crates/lib/src/file/map/saved_nonces.rs", "crates/lib/src/file/format/yaml/mod.rs: serialize_to_string", "crates/lib/src/file/format/toml/mod.rs: serialize_to_string", "crates/cli/src/cli/edit.rs: edit_encrypted_file"]}
{"id": "C96", "title": "How JSON documents are written", "statement": "The text that is written for a JSON document is this one. Each element of an array and each member of an object is on a line of its own, two spaces further right for each level that it is in; a colon and a space are after a key, a comma after all but the last; empty arrays and objects have nothing between their brackets. In strings only quotes, backslashes and control characters are escaped, by their letter if JSON has one for them and else by their number in small letters; the slash is not. Integers are decimal, without zeros first; floats are a shortest decimal, and null if they are no numbers. No line break is at the end. If there are no floats this determines the text.", "quantifier": "for all JSON documents", "why_tests_cant": "There are infinitely many documents; tests compare the texts of a few.", "anchors": ["crates/lib/src/file/format/json/mod.rs: serialize_to_string", "crates/lib/src/file/core.rs: RopsFile"]}
{"id": "C97", "title": "How TOML documents are written", "statement": "The text that is written for a TOML document is this one and no other. The entries that are neither tables nor arrays of tables come first, in their order, each on its line; the sections of the others come after them, in their order, with an empty line between. A table has a header with its path unless all that it has is sections; every element of an array of tables has one. Keys are without quotes if they can be. Strings are in double quotes, or in single ones if they have something to be escaped and can be in single ones, and in three quotes if they have line breaks; escapes are by letter if there is one and else by number in capital letters. Arrays of more than one element have a line for each, with a comma after it; inline tables are on one line. Floats have a point.", "quantifier": "for all TOML documents", "why_tests_cant": "There are infinitely many documents; tests compare the texts of a few.", "anchors": ["crates/lib/src/file/format/toml/mod.rs: serialize_to_string", "crates/lib/src/file/core.rs: RopsFile"]}
{"id": "C98", "title": "Documents and messages on a terminal", "statement": "Whatever the keys and texts of a document are, what is written for it, to a file or to standard output, has no control characters of ASCII other than line breaks (and in TOML tabulators, in JSON the character 127): a secret cannot send escape sequences to the terminal on which it is printed. In YAML there are no other control characters or invisible marks either. In JSON and TOML the control characters from 128 to 159 are written as they are. The messages about plain documents that can be parsed but not represented have no control characters of ASCII either, but for the line breaks in the YAML text of a key. The messages about encrypted documents are not protected: if the first ciphertext that cannot be read names a cipher of its own, `rops decrypt` prints that name as it is, whatever its characters are.", "quantifier": "for all documents of each format; for all encrypted files with such a ciphertext", "why_tests_cant": "Any text may be a key or a value, and each quoting style has its own escapes; tests try a few texts.", "anchors": ["crates/lib/src/file/format/json/mod.rs: serialize_to_string", "crates/lib/src/file/format/toml/mod.rs: serialize_to_string", "crates/lib/src/file/format/yaml/mod.rs: serialize_to_string", "crates/lib/src/file/map/value/encrypted.rs: EncryptedRopsValueFromStrError"]}
