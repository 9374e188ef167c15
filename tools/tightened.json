{
 "layer-list-stop": [
  "Verif.Layer.C40_list_foreign (new)"
 ],
 "log-indent": [
  "Verif.Ws.C50_printed (new)"
 ],
 "log-trim": [
  "Verif.Ws.C50_printed (new)"
 ],
 "cli-commit-args": [
  "Verif.Cli.C80_means (new)",
  "Verif.Cli.C81_done (new)"
 ],
 "cli-datadir": [
  "Verif.Cli.C80_means (new)",
  "Verif.Cli.C81_done (new)"
 ],
 "cli-branch-master": [
  "Verif.Cli.C80_means (new)",
  "Verif.Cli.C81_done (new)"
 ],
 "cli-del-local": [
  "Verif.Cli.C80_means (new)",
  "Verif.Cli.C81_done (new)"
 ],
 "cli-add-root": [
  "Verif.Cli.C80_means (new)",
  "Verif.Cli.C81_done (new)"
 ],
 "cli-show-list": [
  "Verif.Cli.C80_means (new)",
  "Verif.Cli.C81_done (new)"
 ],
 "flag-short-eq": [
  "Verif.Cli.C80_means (new)",
  "Verif.Cli.C81_done (new)"
 ],
 "flag-cuteq": [
  "Verif.Cli.C80_means (new)",
  "Verif.Cli.C81_done (new)"
 ],
 "cli-show-swapped": [
  "Verif.Cli.C69_remotes (new)",
  "Verif.Cli.C69_all (new)"
 ],
 "layer-stat-file": [
  "Verif.Layer.C40_get_foreign (new)"
 ],
 "sig-cap1": [
  "Verif.Sig.C48_second_not_lost_partial (new)"
 ],
 "commit-mark-text": [
  "Verif.Ws.C63_tells_partial (new)"
 ],
 "deletechild-noop": [
  "Verif.C95_children (new)",
  "Verif.C95_delete_answer (new)"
 ],
 "deletechild-all": [
  "Verif.C95_children (new)"
 ],
 "isroot-inv": [
  "Verif.C95_root (new)"
 ],
 "isleaf-one": [
  "Verif.C95_leaf (new)"
 ],
 "haschild-inv": [
  "Verif.C95_has_child (new)"
 ],
 "addchild-overwrite": [
  "Verif.C95_children (new)",
  "Verif.C95_add_answer (new)"
 ],
 "index-flat": [
  "Verif.C96_found (new)"
 ],
 "json-null-err": [
  "Verif.C97_tree (new)"
 ],
 "json-unknown-err": [
  "Verif.C97_tree (new)"
 ],
 "json-info-unknown": [
  "Verif.C97_record (new)"
 ],
 "json-map-replace": [
  "Verif.C97_tree (new)"
 ],
 "time-leap": [
  "Verif.Time.C50_date_round_trip (dates are told by a calendar of their own)"
 ],
 "alias-addanno": [
  "Verif.Alias.C99_add_annotation (new)"
 ],
 "alias-delete": [
  "Verif.Alias.C99_delete_child (new)",
  "Verif.Alias.C99_delete_tag (new)",
  "Verif.Alias.C99_delete_branch (new)"
 ],
 "cli-force-short": [
  "Verif.Cli.C80_options (new)"
 ],
 "cli-name": [
  "Verif.Cli.C80_words (new)"
 ],
 "fold-none": [
  "Verif.C97_tree (names are compared by a separate relation)",
  "Verif.C97_record (same)"
 ],
 "b64-url": [
  "Verif.C101_written (new, base64 specified as positional notation)"
 ],
 "uid-string": [
  "Verif.C100_string (new)"
 ],
 "uint-octal": [
  "Verif.Cli.C80_values (spelling of option values specified independently)"
 ],
 "uint-bits": [
  "Verif.Cli.C80_values (spelling of option values specified independently)"
 ],
 "root-null": [
  "Verif.C97_null (new)"
 ],
 "twice-first": [
  "Verif.C97_tree (equal names inside annotations, branches and tags added to the relation)"
 ],
 "path-abs": [
  "Verif.C44_leads_to_iff (target path specified without the model's isAbs)"
 ],
 "strip-last": [
  "none: the edited definition gives the same results"
 ],
 "mount-comma": [
  "none: caught by C38, which is about the text of the options; C37 is about the order of layers"
 ],
 "log-drops-rest": [
  "Verif.Ws.C50_output (new)"
 ],
 "space-load-notexist": [
  "none: the edited definition gives the same results up to which error is returned"
 ],
 "json-lt": [
  "none: the backslash is then written as \\u005c, which every JSON reader reads as a backslash; no property speaks of the bytes between the quotes"
 ],
 "okmkdir-strict": [
  "none: an existing directory is found by IsDir before, so the edit changes nothing"
 ],
 "info-name": [
  "none: caught by C27, C55; the surviving claim is about a function that the edit does not touch"
 ],
 "get-nolink": [
  "none: caught by C27; the surviving claim is about a function that the edit does not touch"
 ],
 "checkout-keep": [
  "none: caught by C33; the surviving claim is about a function that the edit does not touch"
 ],
 "checkout-wrongmount": [
  "none: caught by C33; the surviving claim is about a function that the edit does not touch"
 ],
 "expand-link-wrong": [
  "none: caught by C27; the surviving claim is about a function that the edit does not touch"
 ],
 "mount-diffdir": [
  "none: caught by C38; the surviving claim is about a function that the edit does not touch"
 ],
 "mount-name": [
  "none: caught by C55; the surviving claim is about a function that the edit does not touch"
 ],
 "env-path": [
  "none: caught by C55; the surviving claim is about a function that the edit does not touch"
 ],
 "json-lt2": [
  "none: as for json-lt; C101 speaks of the JSON value in the file, which is the same"
 ]
}