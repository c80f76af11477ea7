{
 "claims": [
  {
   "property": "C01",
   "status": "proved",
   "theorems": [
    "Rops.Props.C01_map_round_trip",
    "Rops.Props.C01_map_round_trip_save",
    "Rops.Props.C01_map_encrypt_total"
   ],
   "note": ""
  },
  {
   "property": "C02",
   "status": "proved",
   "theorems": [
    "Rops.Props.C02_builder_file_decrypts",
    "Rops.Props.C02_any_recipient"
   ],
   "note": ""
  },
  {
   "property": "C03",
   "status": "proved",
   "theorems": [
    "Rops.Props.C03_enc_text_round_trip",
    "Rops.Props.C03_enc_text"
   ],
   "note": ""
  },
  {
   "property": "C04",
   "status": "proved",
   "theorems": [
    "Rops.Props.C04_enc_text_injective",
    "Rops.Props.C04_enc_text_accepted_iff",
    "Rops.Props.C04_enc_text_canonical",
    "Rops.Props.C04_enc_text_lenient"
   ],
   "note": ""
  },
  {
   "property": "C05",
   "status": "proved",
   "theorems": [
    "Rops.Props.C05_value_bytes_round_trip",
    "Rops.Props.C05_value_bytes",
    "Rops.Props.C05_integer_text",
    "Rops.Props.C05_read_iff"
   ],
   "note": ""
  },
  {
   "property": "C06",
   "status": "proved",
   "theorems": [
    "Rops.Props.C06_base64_encode",
    "Rops.Props.C06_base64_round_trip",
    "Rops.Props.C06_base64_canonical",
    "Rops.Props.C06_base64_slice"
   ],
   "note": ""
  },
  {
   "property": "C07",
   "status": "proved",
   "theorems": [
    "Rops.Props.C07_partial_encryption",
    "Rops.Props.C07_no_setting",
    "Rops.Props.C07_match_locks"
   ],
   "note": ""
  },
  {
   "property": "C08",
   "status": "proved",
   "theorems": [
    "Rops.Props.C08_decision_any_keys",
    "Rops.Props.C08_colon_key_leaks",
    "Rops.Props.C08_unreadable",
    "Rops.Props.C08_misread",
    "Rops.Props.C08_refused",
    "Rops.Props.C08_colon_key_unreadable",
    "Rops.Props.C08_silently_corrupted"
   ],
   "note": ""
  },
  {
   "property": "C09",
   "status": "proved",
   "theorems": [
    "Rops.Props.C09_encrypt_shape",
    "Rops.Props.C09_decrypt_shape",
    "Rops.Props.C09_shape_and_leaves"
   ],
   "note": ""
  },
  {
   "property": "C10",
   "status": "proved",
   "theorems": [
    "Rops.Props.C10_builder_nonces",
    "Rops.Props.C10_encrypt_nonces",
    "Rops.Props.C10_map_nonces",
    "Rops.Props.C10_map_nonces_distinct"
   ],
   "note": ""
  },
  {
   "property": "C11",
   "status": "proved",
   "theorems": [
    "Rops.Props.C11_saved_parameters_reproduce",
    "Rops.Props.C11_second_cycle",
    "Rops.Props.C11_twin_values_differ"
   ],
   "note": ""
  },
  {
   "property": "C12",
   "status": "proved",
   "theorems": [
    "Rops.Props.C12_nonce_content",
    "Rops.Props.C12_same_ciphertext"
   ],
   "note": ""
  },
  {
   "property": "C13",
   "status": "proved",
   "theorems": [
    "Rops.Props.C13_mac_nonce_reuse",
    "Rops.Props.C13_edit_reuses_mac_nonce",
    "Rops.Props.C13_mac_nonce_reused_for_other_date"
   ],
   "note": ""
  },
  {
   "property": "C14",
   "status": "proved",
   "theorems": [
    "Rops.Props.C14_mac_covers",
    "Rops.Props.C14_covers_all",
    "Rops.Props.C14_hex_injective"
   ],
   "note": ""
  },
  {
   "property": "C15",
   "status": "proved",
   "theorems": [
    "Rops.Props.C15_bound_to_path",
    "Rops.Props.C15_moved_value"
   ],
   "note": ""
  },
  {
   "property": "C16",
   "status": "proved",
   "theorems": [
    "Rops.Props.C16_original_mac",
    "Rops.Props.C16_versions"
   ],
   "note": ""
  },
  {
   "property": "C17",
   "status": "proved",
   "theorems": [
    "Rops.Props.C17_rename_plaintext",
    "Rops.Props.C17_nulls",
    "Rops.Props.C17_move_characters",
    "Rops.Props.C17_retag",
    "Rops.Props.C17_accepted_modifications"
   ],
   "note": ""
  },
  {
   "property": "C18",
   "status": "proved",
   "theorems": [
    "Rops.Props.C18_file_plaintext_free",
    "Rops.Props.C18_file_concrete",
    "Rops.Props.C18_plaintext_not_covered",
    "Rops.Props.C18_all_covered"
   ],
   "note": ""
  },
  {
   "property": "C19",
   "status": "proved",
   "theorems": [
    "Rops.Props.C19_decrypt_iff_mac",
    "Rops.Props.C19_mismatch",
    "Rops.Props.C19_decrypt_and_save_agree"
   ],
   "note": ""
  },
  {
   "property": "C20",
   "status": "proved",
   "theorems": [
    "Rops.Props.C20_date_authenticated",
    "Rops.Props.C20_subseconds_free",
    "Rops.Props.C20_date_text"
   ],
   "note": ""
  },
  {
   "property": "C21",
   "status": "proved",
   "theorems": [
    "Rops.Props.C21_add_keys",
    "Rops.Props.C21_same_map",
    "Rops.Props.C21_grants_access",
    "Rops.Props.C21_failed_add"
   ],
   "note": ""
  },
  {
   "property": "C22",
   "status": "proved",
   "theorems": [
    "Rops.Props.C22_one_data_key"
   ],
   "note": ""
  },
  {
   "property": "C23",
   "status": "proved",
   "theorems": [
    "Rops.Props.C23_rotation",
    "Rops.Props.C23_removes",
    "Rops.Props.C23_reencrypted",
    "Rops.Props.C23_locked_out",
    "Rops.Props.C23_removed_locked_out",
    "Rops.Props.C23_failed_removal_mixes_keys"
   ],
   "note": ""
  },
  {
   "property": "C24",
   "status": "proved",
   "theorems": [
    "Rops.Props.C24_absent_iff",
    "Rops.Props.C24_absent_unchanged"
   ],
   "note": ""
  },
  {
   "property": "C25",
   "status": "proved",
   "theorems": [
    "Rops.Props.C25_stale_parameters",
    "Rops.Props.C25_unreadable",
    "Rops.Props.C25_concrete"
   ],
   "note": ""
  },
  {
   "property": "C26",
   "status": "proved",
   "theorems": [
    "Rops.Props.C26_first_not_skipped",
    "Rops.Props.C26_error_hides_later",
    "Rops.Props.C26_none_usable",
    "Rops.Props.C26_age_skipped",
    "Rops.Props.C26_kms_skipped",
    "Rops.Props.C26_one_key_is_enough"
   ],
   "note": ""
  },
  {
   "property": "C27",
   "status": "proved",
   "theorems": [
    "Rops.Props.C27_set_map",
    "Rops.Props.C27_refused",
    "Rops.Props.C27_json_equality",
    "Rops.Props.C27_yaml_equality",
    "Rops.Props.C27_toml_equality",
    "Rops.Props.C27_tags_forgotten",
    "Rops.Props.C27_reordering_keeps_date"
   ],
   "note": ""
  },
  {
   "property": "C28",
   "status": "proved",
   "theorems": [
    "Rops.Props.C28_json",
    "Rops.Props.C28_yaml",
    "Rops.Props.C28_toml",
    "Rops.Props.C28_json_written",
    "Rops.Props.C28_yaml_written",
    "Rops.Props.C28_toml_written",
    "Rops.Props.C28_json_panics",
    "Rops.Props.C28_toml_null"
   ],
   "note": ""
  },
  {
   "property": "C29",
   "status": "proved",
   "theorems": [
    "Rops.Props.C29_json",
    "Rops.Props.C29_yaml",
    "Rops.Props.C29_toml",
    "Rops.Props.C29_json_written",
    "Rops.Props.C29_yaml_written",
    "Rops.Props.C29_toml_written"
   ],
   "note": ""
  },
  {
   "property": "C30",
   "status": "proved",
   "theorems": [
    "Rops.Props.C30_json_enc_error",
    "Rops.Props.C30_toml_enc_error",
    "Rops.Props.C30_yaml_enc_error",
    "Rops.Props.C30_json_plaintext_refused",
    "Rops.Props.C30_json_read",
    "Rops.Props.C30_yaml_read",
    "Rops.Props.C30_toml_read",
    "Rops.Props.C30_json_error",
    "Rops.Props.C30_json_enc_read",
    "Rops.Props.C30_yaml_enc_read",
    "Rops.Props.C30_toml_enc_read"
   ],
   "note": ""
  },
  {
   "property": "C31",
   "status": "proved",
   "theorems": [
    "Rops.Props.C31_reread_iff",
    "Rops.Props.C31_values_first",
    "Rops.Props.C31_reordered",
    "Rops.Props.C31_mac_mismatch"
   ],
   "note": ""
  },
  {
   "property": "C32",
   "status": "proved",
   "theorems": [
    "Rops.Props.C32_no_keys",
    "Rops.Props.C32_units",
    "Rops.Props.C32_unit_order",
    "Rops.Props.C32_added_ids"
   ],
   "note": ""
  },
  {
   "property": "C33",
   "status": "proved",
   "theorems": [
    "Rops.Props.C33_encrypt",
    "Rops.Props.C33_file",
    "Rops.Props.C33_first_rule",
    "Rops.Props.C33_no_rule"
   ],
   "note": ""
  },
  {
   "property": "C34",
   "status": "proved",
   "theorems": [
    "Rops.Props.C34_never_applied",
    "Rops.Props.C34_only_by_flag",
    "Rops.Props.C34_merge_applies",
    "Rops.Props.C34_witness"
   ],
   "note": ""
  },
  {
   "property": "C35",
   "status": "proved",
   "theorems": [
    "Rops.Props.C35_unchanged",
    "Rops.Props.C35_reencrypted",
    "Rops.Props.C35_described",
    "Rops.Props.C35_second_refresh",
    "Rops.Props.C35_never_settles"
   ],
   "note": ""
  },
  {
   "property": "C36",
   "status": "proved",
   "theorems": [
    "Rops.Props.C36_explicit",
    "Rops.Props.C36_extension",
    "Rops.Props.C36_no_extension",
    "Rops.Props.C36_iff"
   ],
   "note": ""
  },
  {
   "property": "C37",
   "status": "proved",
   "theorems": [
    "Rops.Props.C37_failure",
    "Rops.Props.C37_other_files",
    "Rops.Props.C37_no_temporary_file",
    "Rops.Props.C37_closed_pipe"
   ],
   "note": ""
  },
  {
   "property": "C38",
   "status": "proved",
   "theorems": [
    "Rops.Props.C38_crash_states",
    "Rops.Props.C38_crash_loses_file"
   ],
   "note": ""
  },
  {
   "property": "C39",
   "status": "proved",
   "theorems": [
    "Rops.Props.C39_cancelled",
    "Rops.Props.C39_unchanged",
    "Rops.Props.C39_same_files"
   ],
   "note": ""
  },
  {
   "property": "C40",
   "status": "proved",
   "theorems": [
    "Rops.Props.C40_arn_round_trip",
    "Rops.Props.C40_key_id_round_trip",
    "Rops.Props.C40_arn_missing_part",
    "Rops.Props.C40_key_id_missing_part",
    "Rops.Props.C40_arn_accepted_iff",
    "Rops.Props.C40_key_id_accepted_iff"
   ],
   "note": ""
  },
  {
   "property": "C41",
   "status": "proved",
   "theorems": [
    "Rops.Props.C41_private_keys",
    "Rops.Props.C41_bad_key",
    "Rops.Props.C41_empty_variable",
    "Rops.Props.C41_trim"
   ],
   "note": ""
  },
  {
   "property": "C42",
   "status": "proved",
   "theorems": [
    "Rops.Props.C42_read",
    "Rops.Props.C42_lookup",
    "Rops.Props.C42_no_directory",
    "Rops.Props.C42_malformed"
   ],
   "note": ""
  },
  {
   "property": "C43",
   "status": "proved",
   "theorems": [
    "Rops.Props.C43_date_text",
    "Rops.Props.C43_metadata_round_trip",
    "Rops.Props.C43_created",
    "Rops.Props.C43_added_keys",
    "Rops.Props.C43_edited",
    "Rops.Props.C43_read_again",
    "Rops.Props.C43_parsed_arn_writable",
    "Rops.Props.C43_incomplete_arn",
    "Rops.Props.C43_bad_pattern_dropped",
    "Rops.Props.C43_unknown_fields_lost",
    "Rops.Props.C43_incomplete_arn_accepted"
   ],
   "note": ""
  },
  {
   "property": "C44",
   "status": "proved",
   "theorems": [
    "Rops.Props.C44_json",
    "Rops.Props.C44_yaml",
    "Rops.Props.C44_toml",
    "Rops.Props.C44_json_sops",
    "Rops.Props.C44_yaml_sops",
    "Rops.Props.C44_json_encryption",
    "Rops.Props.C44_yaml_encryption",
    "Rops.Props.C44_sops_accepted",
    "Rops.Props.C44_toml_sops_lost"
   ],
   "note": ""
  },
  {
   "property": "C45",
   "status": "proved",
   "theorems": [
    "Rops.Props.C45_decrypts_to_last_map",
    "Rops.Props.C45_recipients_read"
   ],
   "note": ""
  },
  {
   "property": "C46",
   "status": "proved",
   "theorems": [
    "Rops.Props.C46_three_parts",
    "Rops.Props.C46_round_trip",
    "Rops.Props.C46_rejected_iff"
   ],
   "note": ""
  },
  {
   "property": "C47",
   "status": "proved",
   "theorems": [
    "Rops.Props.C47_map",
    "Rops.Props.C47_created",
    "Rops.Props.C47_encrypted_again",
    "Rops.Props.C47_edited"
   ],
   "note": ""
  },
  {
   "property": "C48",
   "status": "proved",
   "theorems": [
    "Rops.Props.C48_visible",
    "Rops.Props.C48_booleans"
   ],
   "note": ""
  },
  {
   "property": "C49",
   "status": "proved",
   "theorems": [
    "Rops.Props.C49_succeeds",
    "Rops.Props.C49_encrypted_twice",
    "Rops.Props.C49_unreadable",
    "Rops.Props.C49_toml_twice"
   ],
   "note": ""
  },
  {
   "property": "C50",
   "status": "proved",
   "theorems": [
    "Rops.Props.C50_round_trip"
   ],
   "note": ""
  },
  {
   "property": "C51",
   "status": "proved",
   "theorems": [
    "Rops.Props.C51_document_kept",
    "Rops.Props.C51_recipients",
    "Rops.Props.C51_keys_added",
    "Rops.Props.C51_keys_removed",
    "Rops.Props.C51_locked_out",
    "Rops.Props.C51_removed_locked_out"
   ],
   "note": ""
  },
  {
   "property": "C52",
   "status": "proved",
   "theorems": [
    "Rops.Props.C52_blind_write",
    "Rops.Props.C52_last_writer_wins",
    "Rops.Props.C52_removal_undone"
   ],
   "note": ""
  },
  {
   "property": "C53",
   "status": "proved",
   "theorems": [
    "Rops.Props.C53_encrypt_iff",
    "Rops.Props.C53_decrypt_iff",
    "Rops.Props.C53_refused",
    "Rops.Props.C53_empty_answer",
    "Rops.Props.C53_later_keys_unused",
    "Rops.Props.C53_arn_parts_ignored",
    "Rops.Props.C53_recipient"
   ],
   "note": ""
  },
  {
   "property": "C54",
   "status": "proved",
   "theorems": [
    "Rops.Props.C54_added",
    "Rops.Props.C54_added_again",
    "Rops.Props.C54_new_file",
    "Rops.Props.C54_new_file_modified",
    "Rops.Props.C54_removal_keeps_dates",
    "Rops.Props.C54_dates_older_than_key"
   ],
   "note": ""
  },
  {
   "property": "C55",
   "status": "proved",
   "theorems": [
    "Rops.Props.C55_document_panics_iff",
    "Rops.Props.C55_enc_text_panics_iff",
    "Rops.Props.C55_arn_panics_iff",
    "Rops.Props.C55_decrypt_panics_iff",
    "Rops.Props.C55_retag_panics",
    "Rops.Props.C55_other_formats",
    "Rops.Props.C55_json_map_panics_iff",
    "Rops.Props.C55_toml_map_panics_iff",
    "Rops.Props.C55_yaml_map_panics_iff"
   ],
   "note": ""
  },
  {
   "property": "C56",
   "status": "proved",
   "theorems": [
    "Rops.Props.C56_encrypt"
   ],
   "note": ""
  },
  {
   "property": "C57",
   "status": "proved",
   "theorems": [
    "Rops.Props.C57_no_private_key",
    "Rops.Props.C57_forged"
   ],
   "note": ""
  },
  {
   "property": "C58",
   "status": "proved",
   "theorems": [
    "Rops.Props.C58_accepted_iff",
    "Rops.Props.C58_unambiguous",
    "Rops.Props.C58_order",
    "Rops.Props.C58_order_keys",
    "Rops.Props.C58_refused",
    "Rops.Props.C58_sayable",
    "Rops.Props.C58_not_a_list",
    "Rops.Props.C58_no_command",
    "Rops.Props.C58_runs"
   ],
   "note": ""
  },
  {
   "property": "C59",
   "status": "proved",
   "theorems": [
    "Rops.Props.C59_config_iff",
    "Rops.Props.C59_file_iff",
    "Rops.Props.C59_rules_required",
    "Rops.Props.C59_one_bad_rule",
    "Rops.Props.C59_unknown_ignored",
    "Rops.Props.C59_order"
   ],
   "note": ""
  },
  {
   "property": "C60",
   "status": "proved",
   "theorems": [
    "Rops.Props.C60_metadata_iff",
    "Rops.Props.C60_file_iff",
    "Rops.Props.C60_json_parts",
    "Rops.Props.C60_toml_parts",
    "Rops.Props.C60_yaml_parts",
    "Rops.Props.C60_last_unit",
    "Rops.Props.C60_no_key_twice"
   ],
   "note": ""
  },
  {
   "property": "C61",
   "status": "proved",
   "theorems": [
    "Rops.Props.C61_retagged_secret",
    "Rops.Props.C61_readable",
    "Rops.Props.C61_shown_bytes",
    "Rops.Props.C61_hash_of_secret",
    "Rops.Props.C61_decrypt_messages",
    "Rops.Props.C61_private_key_shown",
    "Rops.Props.C61_variable_shown",
    "Rops.Props.C61_age_key_hidden",
    "Rops.Props.C61_command",
    "Rops.Props.C61_unreadable",
    "Rops.Props.C61_encrypt_unreadable"
   ],
   "note": ""
  },
  {
   "property": "C62",
   "status": "proved",
   "theorems": [
    "Rops.Props.C62_refresh",
    "Rops.Props.C62_keys_remove"
   ],
   "note": ""
  },
  {
   "property": "C63",
   "status": "proved",
   "theorems": [
    "Rops.Props.C63_metadata_iff",
    "Rops.Props.C63_metadata_error_iff",
    "Rops.Props.C63_json_first",
    "Rops.Props.C63_toml_first",
    "Rops.Props.C63_yaml_first",
    "Rops.Props.C63_text_iff",
    "Rops.Props.C63_config_iff",
    "Rops.Props.C63_reading",
    "Rops.Props.C63_metadata_causes",
    "Rops.Props.C63_config_causes",
    "Rops.Props.C63_overlong_mac",
    "Rops.Props.C63_bad_arn",
    "Rops.Props.C63_bad_config",
    "Rops.Props.C63_config_crash",
    "Rops.Props.C63_input_crash",
    "Rops.Props.C63_file_causes",
    "Rops.Props.C63_crashes",
    "Rops.Props.C63_editor",
    "Rops.Props.C63_own_files",
    "Rops.Props.C63_command_line_causes",
    "Rops.Props.C63_command_line",
    "Rops.Props.C63_main"
   ],
   "note": ""
  },
  {
   "property": "C64",
   "status": "proved",
   "theorems": [
    "Rops.Props.C64_succeeds",
    "Rops.Props.C64_written",
    "Rops.Props.C64_lost"
   ],
   "note": ""
  },
  {
   "property": "C65",
   "status": "proved",
   "theorems": [
    "Rops.Props.C65_accepted_iff",
    "Rops.Props.C65_only_makeable",
    "Rops.Props.C65_read",
    "Rops.Props.C65_removed",
    "Rops.Props.C65_inserted",
    "Rops.Props.C65_replaced",
    "Rops.Props.C65_swapped",
    "Rops.Props.C65_same_length",
    "Rops.Props.C65_book_claim_false"
   ],
   "note": ""
  },
  {
   "property": "C66",
   "status": "proved",
   "theorems": [
    "Rops.Props.C66_unnoticed",
    "Rops.Props.C66_keys_remove",
    "Rops.Props.C66_setting",
    "Rops.Props.C66_setting_unnoticed",
    "Rops.Props.C66_edit_plaintext",
    "Rops.Props.C66_mac_only"
   ],
   "note": ""
  },
  {
   "property": "C67",
   "status": "proved",
   "theorems": [
    "Rops.Props.C67_encrypt_iff",
    "Rops.Props.C67_refresh_iff",
    "Rops.Props.C67_add_iff",
    "Rops.Props.C67_remove_keeps_access",
    "Rops.Props.C67_remove_own",
    "Rops.Props.C67_remove_blocked",
    "Rops.Props.C67_no_credentials",
    "Rops.Props.C67_remove_iff",
    "Rops.Props.C67_decrypt_iff",
    "Rops.Props.C67_edit_iff"
   ],
   "note": ""
  },
  {
   "property": "C68",
   "status": "proved",
   "theorems": [
    "Rops.Props.C68_file",
    "Rops.Props.C68_order",
    "Rops.Props.C68_format_error_iff",
    "Rops.Props.C68_missing_keys_iff"
   ],
   "note": ""
  },
  {
   "property": "C69",
   "status": "proved",
   "theorems": [
    "Rops.Props.C69_same_document",
    "Rops.Props.C69_succeeds",
    "Rops.Props.C69_json",
    "Rops.Props.C69_toml",
    "Rops.Props.C69_through_toml",
    "Rops.Props.C69_null_destroys"
   ],
   "note": ""
  },
  {
   "property": "C70",
   "status": "proved",
   "theorems": [
    "Rops.Props.C70_value",
    "Rops.Props.C70_cases",
    "Rops.Props.C70_plain_document",
    "Rops.Props.C70_encrypted_document",
    "Rops.Props.C70_decrypt",
    "Rops.Props.C70_encrypt",
    "Rops.Props.C70_edit",
    "Rops.Props.C70_silent"
   ],
   "note": ""
  },
  {
   "property": "C71",
   "status": "proved",
   "theorems": [
    "Rops.Props.C71_read",
    "Rops.Props.C71_unambiguous",
    "Rops.Props.C71_too_deep",
    "Rops.Props.C71_written",
    "Rops.Props.C71_laws",
    "Rops.Props.C71_stable"
   ],
   "note": ""
  },
  {
   "property": "C72",
   "status": "proved",
   "theorems": [
    "Rops.Props.C72_file",
    "Rops.Props.C72_history",
    "Rops.Props.C72_decrypted",
    "Rops.Props.C72_round_trip"
   ],
   "note": ""
  },
  {
   "property": "C73",
   "status": "proved",
   "theorems": [
    "Rops.Props.C73_nearest",
    "Rops.Props.C73_printed",
    "Rops.Props.C73_parsed",
    "Rops.Props.C73_json_laws",
    "Rops.Props.C73_json_written",
    "Rops.Props.C73_short_exact",
    "Rops.Props.C73_survives",
    "Rops.Props.C73_portable",
    "Rops.Props.C73_restored",
    "Rops.Props.C73_drifts",
    "Rops.Props.C73_lost"
   ],
   "note": ""
  },
  {
   "property": "C74",
   "status": "proved",
   "theorems": [
    "Rops.Props.C74_found",
    "Rops.Props.C74_same_iff",
    "Rops.Props.C74_opens_iff",
    "Rops.Props.C74_lost",
    "Rops.Props.C74_silent",
    "Rops.Props.C74_serde_reads"
   ],
   "note": ""
  },
  {
   "property": "C75",
   "status": "proved",
   "theorems": [
    "Rops.Props.C75_cipher",
    "Rops.Props.C75_cipher_fails",
    "Rops.Props.C75_cipher_length",
    "Rops.Props.C75_cipher_accepts",
    "Rops.Props.C75_sbox",
    "Rops.Props.C75_hash",
    "Rops.Props.C75_digest",
    "Rops.Props.C75_padded",
    "Rops.Props.C75_digest_length",
    "Rops.Props.C75_reuse",
    "Rops.Props.C75_forged",
    "Rops.Props.C75_value_forged",
    "Rops.Props.C75_value_moved",
    "Rops.Props.C75_edit_leaks",
    "Rops.Props.C75_env",
    "Rops.Props.C75_leaked"
   ],
   "note": ""
  },
  {
   "property": "C76",
   "status": "proved",
   "theorems": [
    "Rops.Props.C76_read_iff",
    "Rops.Props.C76_one_meaning",
    "Rops.Props.C76_one_date",
    "Rops.Props.C76_read_written",
    "Rops.Props.C76_rewritten",
    "Rops.Props.C76_laws",
    "Rops.Props.C76_redated",
    "Rops.Props.C76_restored"
   ],
   "note": ""
  },
  {
   "property": "C77",
   "status": "proved",
   "theorems": [
    "Rops.Props.C77_field",
    "Rops.Props.C77_values",
    "Rops.Props.C77_convinced",
    "Rops.Props.C77_accepted",
    "Rops.Props.C77_other_tag",
    "Rops.Props.C77_value_accepted",
    "Rops.Props.C77_edit_candidates",
    "Rops.Props.C77_leaked"
   ],
   "note": ""
  },
  {
   "property": "C78",
   "status": "proved",
   "theorems": [
    "Rops.Props.C78_rounded",
    "Rops.Props.C78_read",
    "Rops.Props.C78_shown",
    "Rops.Props.C78_json_shown",
    "Rops.Props.C78_json_layout",
    "Rops.Props.C78_json_read",
    "Rops.Props.C78_json_range",
    "Rops.Props.C78_drift"
   ],
   "note": ""
  },
  {
   "property": "C79",
   "status": "proved",
   "theorems": [
    "Rops.Props.C79_encrypt",
    "Rops.Props.C79_refresh",
    "Rops.Props.C79_remove",
    "Rops.Props.C79_edit"
   ],
   "note": ""
  },
  {
   "property": "C80",
   "status": "proved",
   "theorems": [
    "Rops.Props.C80_inverse",
    "Rops.Props.C80_expansion",
    "Rops.Props.C80_block",
    "Rops.Props.C80_digest",
    "Rops.Props.C80_gcm",
    "Rops.Props.C80_file"
   ],
   "note": ""
  },
  {
   "property": "C81",
   "status": "proved",
   "theorems": [
    "Rops.Props.C81_laws",
    "Rops.Props.C81_floats",
    "Rops.Props.C81_distinct",
    "Rops.Props.C81_stable",
    "Rops.Props.C81_deep"
   ],
   "note": ""
  },
  {
   "property": "C82",
   "status": "proved",
   "theorems": [
    "Rops.Props.C82_scalars",
    "Rops.Props.C82_file",
    "Rops.Props.C82_history",
    "Rops.Props.C82_decrypted",
    "Rops.Props.C82_restored",
    "Rops.Props.C82_round_trip",
    "Rops.Props.C82_date_lost"
   ],
   "note": ""
  },
  {
   "property": "C83",
   "status": "proved",
   "theorems": [
    "Rops.Props.C83_read",
    "Rops.Props.C83_unambiguous",
    "Rops.Props.C83_layout",
    "Rops.Props.C83_controls"
   ],
   "note": ""
  },
  {
   "property": "C84",
   "status": "proved",
   "theorems": [
    "Rops.Props.C84_means",
    "Rops.Props.C84_determined",
    "Rops.Props.C84_once",
    "Rops.Props.C84_inline"
   ],
   "note": ""
  },
  {
   "property": "C85",
   "status": "proved",
   "theorems": [
    "Rops.Props.C85_fits",
    "Rops.Props.C85_read",
    "Rops.Props.C85_inline"
   ],
   "note": ""
  },
  {
   "property": "C86",
   "status": "proved",
   "theorems": [
    "Rops.Props.C86_texts",
    "Rops.Props.C86_unambiguous",
    "Rops.Props.C86_written",
    "Rops.Props.C86_shown",
    "Rops.Props.C86_still",
    "Rops.Props.C86_stable",
    "Rops.Props.C86_laws",
    "Rops.Props.C86_read"
   ],
   "note": ""
  },
  {
   "property": "C87",
   "status": "proved",
   "theorems": [
    "Rops.Props.C87_read",
    "Rops.Props.C87_unambiguous",
    "Rops.Props.C87_plain",
    "Rops.Props.C87_texts",
    "Rops.Props.C87_numbers",
    "Rops.Props.C87_documents",
    "Rops.Props.C87_stable"
   ],
   "note": ""
  },
  {
   "property": "C88",
   "status": "proved",
   "theorems": [
    "Rops.Props.C88_file",
    "Rops.Props.C88_history",
    "Rops.Props.C88_decrypted",
    "Rops.Props.C88_restored",
    "Rops.Props.C88_round_trip"
   ],
   "note": ""
  },
  {
   "property": "C89",
   "status": "proved",
   "theorems": [
    "Rops.Props.C89_split",
    "Rops.Props.C89_unambiguous",
    "Rops.Props.C89_command",
    "Rops.Props.C89_panic",
    "Rops.Props.C89_refused",
    "Rops.Props.C89_quoted",
    "Rops.Props.C89_edited"
   ],
   "note": ""
  },
  {
   "property": "C90",
   "status": "proved",
   "theorems": [
    "Rops.Props.C90_documents",
    "Rops.Props.C90_stable",
    "Rops.Props.C90_injective",
    "Rops.Props.C90_printable",
    "Rops.Props.C90_laws",
    "Rops.Props.C90_kept",
    "Rops.Props.C90_restored"
   ],
   "note": ""
  },
  {
   "property": "C91",
   "status": "proved",
   "theorems": [
    "Rops.Props.C91_decrypted",
    "Rops.Props.C91_read",
    "Rops.Props.C91_kept",
    "Rops.Props.C91_round_trip"
   ],
   "note": ""
  },
  {
   "property": "C92",
   "status": "proved",
   "theorems": [
    "Rops.Props.C92_read",
    "Rops.Props.C92_refused",
    "Rops.Props.C92_unambiguous",
    "Rops.Props.C92_nodes",
    "Rops.Props.C92_written",
    "Rops.Props.C92_before",
    "Rops.Props.C92_breaks"
   ],
   "note": ""
  },
  {
   "property": "C93",
   "status": "proved",
   "theorems": [
    "Rops.Props.C93_json",
    "Rops.Props.C93_toml",
    "Rops.Props.C93_yaml",
    "Rops.Props.C93_values"
   ],
   "note": ""
  },
  {
   "property": "C94",
   "status": "proved",
   "theorems": [
    "Rops.Props.C94_written",
    "Rops.Props.C94_only",
    "Rops.Props.C94_trimmed"
   ],
   "note": ""
  },
  {
   "property": "C95",
   "status": "proved",
   "theorems": [
    "Rops.Props.C95_kept",
    "Rops.Props.C95_json",
    "Rops.Props.C95_yaml",
    "Rops.Props.C95_toml"
   ],
   "note": ""
  },
  {
   "property": "C96",
   "status": "proved",
   "theorems": [
    "Rops.Props.C96_json",
    "Rops.Props.C96_json_only"
   ],
   "note": ""
  },
  {
   "property": "C97",
   "status": "proved",
   "theorems": [
    "Rops.Props.C97_toml"
   ],
   "note": ""
  },
  {
   "property": "C98",
   "status": "proved",
   "theorems": [
    "Rops.Props.C98_json",
    "Rops.Props.C98_toml",
    "Rops.Props.C98_toml_read",
    "Rops.Props.C98_yaml",
    "Rops.Props.C98_not_ascii",
    "Rops.Props.C98_plain_message",
    "Rops.Props.C98_message"
   ],
   "note": ""
  }
 ]
}