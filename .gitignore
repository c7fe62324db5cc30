.lake/
lean/.lake/
lean/lake-manifest.json
